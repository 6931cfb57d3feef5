import Verif.Spec.TornJson
import Verif.Props.PrettyJson
/- C103: a package.json whose writing was interrupted (add.rs:112-118, remove.rs:63-69). -/

set_option linter.unusedSectionVars false

namespace Oro
namespace PJson

theorem scan_append (s : Where × Int) (a b : Str) : scan s (a ++ b) = scan (scan s a) b := by
  induction a generalizing s with
  | nil => rfl
  | cons c a ih => obtain ⟨w, d⟩ := s; exact ih _

/-- no fewer than so many brackets are open at any time -/
def above (b : Int) : Where × Int → Str → Prop
  | s, [] => b ≤ s.2
  | (w, d), c :: t => b ≤ d ∧ above b (step w c, if w = .outside then d + weight c else d) t

theorem above_append {b : Int} {s : Where × Int} {a c : Str} : above b s a → above b (scan s a) c → above b s (a ++ c) := by
  induction a generalizing s with
  | nil => intro _ h; exact h
  | cons x a ih => obtain ⟨w, d⟩ := s; intro h1 h2; exact ⟨h1.1, ih h1.2 h2⟩

theorem above_mono {b b' : Int} (h : b' ≤ b) {s : Where × Int} {a : Str} (ha : above b s a) : above b' s a := by
  induction a generalizing s with
  | nil => exact Int.le_trans h ha
  | cons x a ih => obtain ⟨w, d⟩ := s; exact ⟨Int.le_trans h ha.1, ih ha.2⟩

theorem above_prefix {b : Int} {s : Where × Int} {p t : Str} (hp : p <+: t) (h : above b s t) : b ≤ (scan s p).2 := by
  obtain ⟨r, rfl⟩ := hp
  induction p generalizing s with
  | nil =>
    obtain ⟨w, d⟩ := s
    cases r with
    | nil => exact h
    | cons x r => exact h.1
  | cons x p ih => obtain ⟨w, d⟩ := s; exact ih h.2

/-- a text that leaves things as they were, and closes no bracket it has not opened -/
def Nice (t : Str) : Prop := ∀ d, scan (.outside, d) t = (.outside, d) ∧ above d (.outside, d) t

theorem nice_nil : Nice [] := fun d => ⟨rfl, Int.le_refl d⟩

theorem nice_append {a b : Str} (ha : Nice a) (hb : Nice b) : Nice (a ++ b) := fun d =>
  ⟨by rw [scan_append, (ha d).1, (hb d).1], above_append (ha d).2 (by rw [(ha d).1]; exact (hb d).2)⟩

theorem nice_char {c : Char} (h : c ≠ '"') (hw : weight c = 0) : Nice [c] := fun d => by
  simp [scan, above, step, h, hw]

theorem nice_plain {t : Str} (h : ∀ c ∈ t, c ≠ '"' ∧ weight c = 0) : Nice t := by
  induction t with
  | nil => exact nice_nil
  | cons c t ih =>
    have := h c List.mem_cons_self
    exact nice_append (a := [c]) (nice_char this.1 this.2) (ih fun c hc => h c (List.mem_cons_of_mem _ hc))

theorem nice_wrap {o c : Char} {t : Str} (ho : weight o = 1) (ho' : o ≠ '"') (hc : weight c = -1) (hc' : c ≠ '"') (h : Nice t) :
    Nice (o :: t ++ [c]) := fun d => by
  obtain ⟨h1, h2⟩ := h (d + 1)
  have e : scan (.outside, d) (o :: t) = (.outside, d + 1) := by
    rw [scan]; simp only [step, if_neg ho', if_true, ho]; exact h1
  constructor
  · rw [scan_append, e]
    simp [scan, step, hc, hc']
    omega
  · refine above_append ⟨Int.le_refl d, ?_⟩ ?_
    · simp only [step, if_neg ho', if_true, ho]
      exact above_mono (by omega) h2
    · rw [e]
      simp [above, hc, hc']
      omega

theorem esc_inside (c : Char) (d : Int) : scan (.inString, d) (escChar c) = (.inString, d) ∧ above d (.inString, d) (escChar c) := by
  have hx : ∀ x ∈ ['0', '1', '2', '3', '4', '5', '6', '7', '8', '9', 'a', 'b', 'c', 'd', 'e', 'f'], x ≠ '"' ∧ x ≠ '\\' := by decide
  rcases escChar_cases c with ⟨h, -, h2, h3⟩ | ⟨e, h, -⟩ | ⟨e, f, h, he, hf⟩
  · rw [h]; simp [scan, above, step, h2, h3]
  · rw [h]; simp [scan, above, step]
  · rw [h]; simp [scan, above, step, hx e he, hx f hf]

theorem nice_quote (s : Str) : Nice (quote s) := fun d => by
  have body : scan (.inString, d) (s.flatMap escChar) = (.inString, d) ∧ above d (.inString, d) (s.flatMap escChar) := by
    induction s with
    | nil => exact ⟨rfl, Int.le_refl d⟩
    | cons c s ih =>
      rw [List.flatMap_cons]
      exact ⟨by rw [scan_append, (esc_inside c d).1, ih.1], above_append (esc_inside c d).2 (by rw [(esc_inside c d).1]; exact ih.2)⟩
  have e : scan (.outside, d) ('"' :: s.flatMap escChar) = (.inString, d) := by
    rw [scan]; simpa [step, weight] using body.1
  have a : above d (.outside, d) ('"' :: s.flatMap escChar) := ⟨Int.le_refl d, by simpa [step, weight] using body.2⟩
  unfold quote
  exact ⟨by rw [scan_append, e]; simp [scan, step], above_append a (by rw [e]; simp [above])⟩

theorem ws_weight {c : Char} (h : isWs c = true) : c ≠ '"' ∧ weight c = 0 := by
  unfold isWs at h
  simp only [Bool.or_eq_true, decide_eq_true_eq] at h
  rcases h with ((rfl | rfl) | rfl) | rfl <;> decide

theorem num_weight {c : Char} (h : numChar c = true) : c ≠ '"' ∧ weight c = 0 := by
  have : ∀ d ∈ ['"', '{', '[', '}', ']'], c ≠ d := by
    intro d hd he
    subst he
    simp only [List.mem_cons, List.not_mem_nil, or_false] at hd
    rcases hd with rfl | rfl | rfl | rfl | rfl <;> revert h <;> decide
  refine ⟨this _ (by simp), ?_⟩
  simp [weight, this '{' (by simp), this '[' (by simp), this '}' (by simp), this ']' (by simp)]

theorem nice_ws {s : Str} (h : ∀ c ∈ s, isWs c = true) : Nice s := nice_plain fun c hc => ws_weight (h c hc)

section
variable {le ind : Str} (hle : ∀ c ∈ le, isWs c = true) (hind : ∀ c ∈ ind, isWs c = true)
include hle hind

theorem nice_nl (n : Nat) : Nice (le ++ (List.replicate n ind).flatten) := by
  refine nice_append (nice_ws hle) (nice_ws ?_)
  intro c hc
  obtain ⟨l, hl, hc⟩ := List.mem_flatten.1 hc
  rw [List.eq_of_mem_replicate hl] at hc
  exact hind c hc

mutual
theorem nice_toks : ∀ (n : Nat) (v : Json), Ok v = true → Nice (flat le ind (toks n v))
  | n, .null, _ => by unfold toks; rw [flat_txt]; exact nice_plain (by decide)
  | n, .bool b, _ => by unfold toks; rw [flat_txt]; exact nice_plain (by cases b <;> decide)
  | n, .num s, h => by
    unfold toks
    rw [flat_txt]
    exact nice_plain fun c hc => num_weight ((numText_spec (s := s) (by simpa [Ok] using h)).1 c hc)
  | n, .str s, _ => by unfold toks; rw [flat_txt]; exact nice_quote s
  | n, .arr [], _ => by
    unfold toks; rw [flat_txt]
    exact nice_wrap (o := '[') (c := ']') (by decide) (by decide) (by decide) (by decide) nice_nil
  | n, .arr (v :: l), h => by
    rw [Ok, okList, Bool.and_eq_true] at h
    unfold toks
    have h1 := nice_toks (n + 1) v h.1
    have h2 := nice_elems (n + 1) l h.2
    have := nice_wrap (o := '[') (c := ']') (by decide) (by decide) (by decide) (by decide)
      (nice_append (nice_nl hle hind (n + 1)) (nice_append (nice_append h1 h2) (nice_nl hle hind n)))
    simpa using this
  | n, .obj [], _ => by
    unfold toks; rw [flat_txt]
    exact nice_wrap (o := '{') (c := '}') (by decide) (by decide) (by decide) (by decide) nice_nil
  | n, .obj (p :: l), h => by
    rw [Ok, okMembers, Bool.and_eq_true, Bool.and_eq_true] at h
    unfold toks
    have h1 := nice_member (n + 1) p h.2.1
    have h2 := nice_members (n + 1) l h.2.2
    have := nice_wrap (o := '{') (c := '}') (by decide) (by decide) (by decide) (by decide)
      (nice_append (nice_nl hle hind (n + 1)) (nice_append (nice_append h1 h2) (nice_nl hle hind n)))
    simpa using this
theorem nice_elems : ∀ (n : Nat) (l : List Json), okList l = true → Nice (flat le ind (elemToks n l))
  | n, [], _ => by unfold elemToks; exact nice_nil
  | n, v :: l, h => by
    rw [okList, Bool.and_eq_true] at h
    unfold elemToks
    have := nice_append (nice_char (c := ',') (by decide) (by decide))
      (nice_append (nice_nl hle hind n) (nice_append (nice_toks n v h.1) (nice_elems n l h.2)))
    simpa using this
theorem nice_member : ∀ (n : Nat) (p : Str × Json), okMember p = true → Nice (flat le ind (memberToks n p))
  | n, (k, v), h => by
    rw [okMember] at h
    unfold memberToks
    have := nice_append (nice_quote k) (nice_append (nice_plain (t := [':', ' ']) (by decide)) (nice_toks n v h))
    simpa using this
theorem nice_members : ∀ (n : Nat) (l : List (Str × Json)), okMembers l = true → Nice (flat le ind (membersToks n l))
  | n, [], _ => by unfold membersToks; exact nice_nil
  | n, p :: l, h => by
    rw [okMembers, Bool.and_eq_true] at h
    unfold membersToks
    have := nice_append (nice_char (c := ',') (by decide) (by decide))
      (nice_append (nice_nl hle hind n) (nice_append (nice_member n p h.1) (nice_members n l h.2)))
    simpa using this
end

/-- the text of an object begins with its bracket and ends with the matching one -/
theorem wrapped (m : List (Str × Json)) (h : Ok (.obj m) = true) : ∃ t, flat le ind (toks 0 (.obj m)) = '{' :: t ++ ['}'] ∧ Nice t := by
  cases m with
  | nil => exact ⟨[], by unfold toks; rw [flat_txt]; rfl, nice_nil⟩
  | cons p l =>
    rw [Ok, okMembers, Bool.and_eq_true, Bool.and_eq_true] at h
    refine ⟨_, ?_, nice_append (nice_nl hle hind 1) (nice_append (nice_append (nice_member hle hind 1 p h.2.1) (nice_members hle hind 1 l h.2.2)) (nice_nl hle hind 0))⟩
    unfold toks
    simp

end

/-- the beginning of an object's text is open until the last bracket -/
theorem closed_prefix {t r p : Str} (ht : Nice t) (hp : p <+: ('{' :: t ++ ['}']) ++ r) (h0 : p ≠ []) (hc : Closed p) :
    ∃ q, q <+: r ∧ p = ('{' :: t ++ ['}']) ++ q := by
  have hopen : ∀ p', scan (.outside, 0) ('{' :: p') = scan (.outside, 1) p' := fun p' => by
    rw [scan]; simp [step, weight]
  have hp : p <+: '{' :: t ++ ('}' :: r) := by simpa using hp
  rcases List.prefix_or_prefix_of_prefix hp (List.prefix_append ('{' :: t) ('}' :: r)) with h | h
  · exfalso
    cases p with
    | nil => exact h0 rfl
    | cons x p' =>
      obtain ⟨rfl, h'⟩ := List.cons_prefix_cons.1 h
      unfold Closed at hc
      rw [hopen] at hc
      have := above_prefix h' (ht 1).2
      rw [hc] at this
      exact absurd this (by decide)
  · obtain ⟨q', rfl⟩ := h
    rw [List.prefix_append_right_inj] at hp
    cases q' with
    | nil =>
      exfalso
      unfold Closed at hc
      rw [List.append_nil, hopen, (ht 1).1] at hc
      cases hc
    | cons x q =>
      obtain ⟨rfl, h'⟩ := List.cons_prefix_cons.1 hp
      exact ⟨q, h', by simp⟩

theorem format_ws {parse : Str → Option Json} {t : Str} {f : Formatted} (h : fromStr parse t = some f) :
    isWs f.character = true ∧ ∀ c ∈ f.lineEnd, isWs c = true := by
  unfold fromStr at h
  obtain ⟨v0, _, rfl⟩ := Option.map_eq_some_iff.1 h
  constructor
  · dsimp only
    cases hd : detectIndentation t with
    | none => decide
    | some p =>
      unfold detectIndentation at hd
      split at hd
      · exact lineIndent_ws _ none 0 p.1 p.2 (fun _ h => (by cases h)) hd
      · cases hd
  · dsimp only
    cases hd : detectLineEnd t with
    | none => decide
    | some p =>
      unfold detectLineEnd at hd
      obtain ⟨e, he, rfl⟩ := Option.map_eq_some_iff.1 hd
      exact firstBreak_ws t e he

/-- **C103**: a package.json is read, the object in it changed, and the program interrupted while writing the file anew. What
is left is no JSON, or it is the whole new document, of which at most the end of the last line is missing: it is never
taken for another document. -/
theorem C103_torn (parse : Str → Option Json) (hr : Reads parse) (hs : Strict parse) (old : Str) (f : Formatted) (h : fromStr parse old = some f)
    (m : List (Str × Json)) (hm : Ok (.obj m) = true) (p : Str) (hp : p <+: toStringPretty { f with value := .obj m }) :
    parse p = none ∨ (parse p = some (.obj m) ∧ ∃ q, toStringPretty { f with value := .obj m } = p ++ q ∧ ∀ c ∈ q, isWs c = true) := by
  cases hx : parse p with
  | none => exact .inl rfl
  | some w =>
    right
    obtain ⟨h0, hc⟩ := hs p w hx
    obtain ⟨hw, hl⟩ := format_ws h
    have hw' : ∀ c ∈ List.replicate f.count f.character, isWs c = true := fun c hc => by
      rw [List.eq_of_mem_replicate hc]; exact hw
    have e := C41_written { f with value := .obj m } hm
    unfold styled at e
    obtain ⟨t, ht, hn⟩ := wrapped hl hw' m hm
    dsimp only at e
    rw [ht] at e
    rw [e] at hp
    obtain ⟨q, hq, rfl⟩ := closed_prefix hn hp h0 hc
    obtain ⟨q', hq'⟩ := hq
    have hend : ∀ c ∈ q ++ q', isWs c = true := by
      rw [hq']
      intro c hc
      split at hc
      · exact hl c hc
      · cases hc
    have hd : Denotes ('{' :: t ++ ['}'] ++ q) (.obj m) := by
      unfold Denotes
      rw [← ht, strip_toks (le := f.lineEnd) (ind := List.replicate f.count f.character) hl hw' 0 _ _ hm]
      have : strip .outside q = [] := by
        have := strip_ws (s := q) (fun c hc => hend c (List.mem_append_left _ hc)) []
        rw [List.append_nil] at this
        rw [this]; rfl
      rw [this, List.append_nil]
    have h1 := hr _ _ hm hd
    rw [hx] at h1
    refine ⟨h1, q', ?_, fun c hc => hend c (List.mem_append_right _ hc)⟩
    rw [e, ← hq']
    simp only [List.append_assoc]

/-- The stronger claim is false: neither the old document nor the new one is left when the program is interrupted right after
the file was emptied; the old one is gone, and no later command can read the file. -/
theorem C103_lost_fails (parse : Str → Option Json) (hr : Reads parse) (hs : Strict parse) (old : Str) (f : Formatted) (h : fromStr parse old = some f)
    (m : List (Str × Json)) (hm : Ok (.obj m) = true) : parse old ≠ none ∧ parse (toStringPretty { f with value := .obj m }) = some (.obj m) ∧
    ∃ p, p <+: toStringPretty { f with value := .obj m } ∧ parse p = none := by
  refine ⟨?_, hr _ _ hm (C41_edit parse old f h _ hm), [], List.nil_prefix, ?_⟩
  · intro he
    unfold fromStr at h
    rw [he] at h
    cases h
  · cases h : parse [] with
    | none => rfl
    | some v => exact absurd rfl (hs _ _ h).1

/-- dropping whitespace outside of strings changes nothing -/
theorem scan_strip (w : Where) (d : Int) (t : Str) : scan (w, d) (strip w t) = scan (w, d) t := by
  induction t generalizing w d with
  | nil => rfl
  | cons c t ih =>
    rw [strip]
    split
    · rename_i h
      obtain ⟨rfl, h⟩ := h
      obtain ⟨h1, h2⟩ := ws_weight h
      rw [ih, scan]
      simp [step, h1, h2]
    · rw [scan, scan, ih]

/-- a reader as the theorems assume it exists -/
theorem C103_reader_exists : ∃ parse, Reads parse ∧ Strict parse := by
  classical
  refine ⟨fun t => if h : ∃ v, Ok v = true ∧ Denotes t v then some h.choose else none, ?_, ?_⟩
  · intro t v hv hd
    have hex : ∃ v, Ok v = true ∧ Denotes t v := ⟨v, hv, hd⟩
    dsimp only
    rw [dif_pos hex, denotes_unique hex.choose_spec.1 hv hex.choose_spec.2 hd]
  · intro t v h
    dsimp only at h
    split at h
    · rename_i hex
      obtain ⟨hv, hd⟩ := hex.choose_spec
      have hw := strip_toks (le := []) (ind := []) (by simp) (by simp) 0 hex.choose [] hv
      rw [List.append_nil] at hw
      have hn := nice_toks (le := []) (ind := []) (by simp) (by simp) 0 hex.choose hv
      unfold Denotes at hd
      have e : strip .outside t = strip .outside (flat [] [] (toks 0 hex.choose)) := by
        rw [hd, hw]; exact (List.append_nil _).symm
      have hc : scan (.outside, 0) t = (.outside, 0) := by
        rw [← scan_strip, e, scan_strip, (hn 0).1]
      refine ⟨?_, hc⟩
      rintro rfl
      obtain ⟨c, r, hc, hcw⟩ := solid_toks 0 hex.choose hv
      rw [hc, flat_ch] at e
      rw [strip, strip, if_neg (by simp [hcw])] at e
      cases e
    · cases h

/-- the hypotheses are met: {"a":1}, of which a part is left, or all but the line end -/
example (parse : Str → Option Json) (hr : Reads parse) :
    parse (styled '\t' 1 ['\n'] true sample).dropLast = some sample ∧ ¬ Closed ['{', '\n', '\t', '"', 'a', '"', ':', ' ', '1', '\n'] := by
  exact ⟨hr _ _ (by decide) (by unfold Denotes; decide +kernel), by unfold Closed; decide +kernel⟩

end PJson
end Oro
