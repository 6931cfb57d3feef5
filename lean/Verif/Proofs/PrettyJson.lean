import Verif.Spec.PrettyJson
set_option linter.unusedSectionVars false
namespace Oro
namespace PJson

/-! ### flat -/

@[simp] theorem flat_nil (le ind : Str) : flat le ind [] = [] := rfl
@[simp] theorem flat_ch (le ind : Str) (c : Char) (ts : List Tok) : flat le ind (.ch c :: ts) = c :: flat le ind ts := rfl
@[simp] theorem flat_nl (le ind : Str) (n : Nat) (ts : List Tok) :
    flat le ind (.nl n :: ts) = le ++ (List.replicate n ind).flatten ++ flat le ind ts := rfl
@[simp] theorem flat_append (le ind : Str) (a b : List Tok) : flat le ind (a ++ b) = flat le ind a ++ flat le ind b := by
  simp [flat]
@[simp] theorem flat_txt (le ind : Str) (s : Str) : flat le ind (txt s) = s := by
  induction s with
  | nil => rfl
  | cons c s ih => simpa [txt] using ih

/-! ### what the printer emits -/

/-- line breaks are followed by a character that is not whitespace; no character is a line break -/
def good : List Tok → Bool
  | [] => true
  | .ch c :: ts => c ≠ '\n' && c ≠ '\r' && good ts
  | [.nl _] => false
  | .nl _ :: .nl _ :: _ => false
  | .nl _ :: .ch c :: ts => !isWs c && good (.ch c :: ts)

theorem good_append : ∀ (a b : List Tok), good a = true → good b = true → good (a ++ b) = true
  | [], _, _, h => h
  | .ch c :: ts, b, h1, h2 => by
    simp only [good, Bool.and_eq_true] at h1
    simp only [List.cons_append, good, Bool.and_eq_true]
    exact ⟨h1.1, good_append ts b h1.2 h2⟩
  | [.nl _], _, h1, _ => by simp [good] at h1
  | .nl _ :: .nl _ :: _, _, h1, _ => by simp [good] at h1
  | .nl _ :: .ch c :: ts, b, h1, h2 => by
    simp only [good, Bool.and_eq_true] at h1
    have := good_append ts b h1.2.2 h2
    simp only [List.cons_append, good, Bool.and_eq_true]
    exact ⟨h1.1, h1.2.1, this⟩

/-- begins with a character that is not whitespace -/
def solid (ts : List Tok) : Prop := ∃ c r, ts = .ch c :: r ∧ isWs c = false

theorem good_nl {n : Nat} {ts : List Tok} (h : good ts = true) (hs : solid ts) : good (.nl n :: ts) = true := by
  obtain ⟨c, r, rfl, hc⟩ := hs
  simp only [good, Bool.and_eq_true]
  exact ⟨by simp [hc], by simpa [good] using h⟩

theorem solid_append {a b : List Tok} (h : solid a) : solid (a ++ b) := by
  obtain ⟨c, r, rfl, hc⟩ := h
  exact ⟨c, r ++ b, rfl, hc⟩

theorem good_txt {s : Str} (h : ∀ c ∈ s, c ≠ '\n' ∧ c ≠ '\r') : good (txt s) = true := by
  induction s with
  | nil => rfl
  | cons c s ih =>
    simp only [txt, List.map_cons, good, Bool.and_eq_true, decide_eq_true_eq]
    exact ⟨h c List.mem_cons_self, ih fun c hc => h c (List.mem_cons_of_mem _ hc)⟩

theorem hexDigit_cases (n : Nat) (h : n < 16) : hexDigit n ∈ ['0', '1', '2', '3', '4', '5', '6', '7', '8', '9', 'a', 'b', 'c', 'd', 'e', 'f'] := by
  have : ∀ n < 16, hexDigit n ∈ ['0', '1', '2', '3', '4', '5', '6', '7', '8', '9', 'a', 'b', 'c', 'd', 'e', 'f'] := by decide
  exact this n h

/-- what an escaped character can look like -/
theorem escChar_cases (c : Char) : (escChar c = [c] ∧ 32 ≤ c.toNat ∧ c ≠ '"' ∧ c ≠ '\\') ∨
    (∃ d, escChar c = ['\\', d] ∧ d ∈ ['"', '\\', 'b', 't', 'n', 'f', 'r']) ∨
    (∃ d e, escChar c = ['\\', 'u', '0', '0', d, e] ∧
      d ∈ ['0', '1', '2', '3', '4', '5', '6', '7', '8', '9', 'a', 'b', 'c', 'd', 'e', 'f'] ∧
      e ∈ ['0', '1', '2', '3', '4', '5', '6', '7', '8', '9', 'a', 'b', 'c', 'd', 'e', 'f']) := by
  unfold escChar
  split_ifs with h1 h2 h3 h4 h5 h6 h7 h8
  iterate 7 exact .inr (.inl ⟨_, rfl, by decide⟩)
  · exact .inr (.inr ⟨_, _, rfl, hexDigit_cases _ (by omega), hexDigit_cases _ (by omega)⟩)
  · exact .inl ⟨rfl, by omega, h1, h2⟩

theorem escChar_clean (c : Char) : ∀ d ∈ escChar c, d ≠ '\n' ∧ d ≠ '\r' := by
  intro d hd
  rcases escChar_cases c with ⟨h, h2, -⟩ | ⟨e, h, he⟩ | ⟨e, f, h, he, hf⟩
  · rw [h, List.mem_singleton] at hd
    subst hd
    constructor <;> rintro rfl <;> simp at h2
  · rw [h] at hd
    simp only [List.mem_cons, List.not_mem_nil, or_false] at hd he
    rcases hd with rfl | rfl
    · decide
    · rcases he with rfl | rfl | rfl | rfl | rfl | rfl | rfl <;> decide
  · rw [h] at hd
    have : ∀ x ∈ ['0', '1', '2', '3', '4', '5', '6', '7', '8', '9', 'a', 'b', 'c', 'd', 'e', 'f'], x ≠ '\n' ∧ x ≠ '\r' := by decide
    simp only [List.mem_cons, List.not_mem_nil, or_false] at hd
    rcases hd with rfl | rfl | rfl | rfl | rfl | rfl
    · decide
    · decide
    · decide
    · decide
    · exact this _ he
    · exact this _ hf

theorem quote_clean (s : Str) : ∀ d ∈ quote s, d ≠ '\n' ∧ d ≠ '\r' := by
  intro d hd
  simp only [quote, List.cons_append, List.mem_cons, List.mem_append, List.mem_flatMap, List.not_mem_nil, or_false] at hd
  rcases hd with rfl | ⟨c, _, h⟩ | rfl
  · decide
  · exact escChar_clean c d h
  · decide

theorem numChar_clean {c : Char} (h : numChar c = true) : c ≠ '\n' ∧ c ≠ '\r' ∧ isWs c = false ∧ c ≠ '"' := by
  have : ∀ d ∈ ['\n', '\r', ' ', '\t', '"'], c ≠ d := by
    intro d hd he
    subst he
    simp only [List.mem_cons, List.not_mem_nil, or_false] at hd
    rcases hd with rfl | rfl | rfl | rfl | rfl <;> revert h <;> decide
  refine ⟨this _ (by simp), this _ (by simp), ?_, this _ (by simp)⟩
  simp [isWs, this ' ' (by simp), this '\t' (by simp), this '\r' (by simp), this '\n' (by simp)]

theorem numText_spec {s : Str} (h : numText s = true) : (∀ c ∈ s, numChar c = true) ∧ ∃ c r, s = c :: r := by
  unfold numText at h
  rw [Bool.and_eq_true, List.all_eq_true] at h
  refine ⟨h.1, ?_⟩
  cases s with
  | nil => simp at h
  | cons c r => exact ⟨c, r, rfl⟩

theorem boolText_clean (b : Bool) : ∀ c ∈ boolText b, c ≠ '\n' ∧ c ≠ '\r' := by cases b <;> decide

theorem solid_toks (n : Nat) (v : Json) (h : Ok v = true) : solid (toks n v) := by
  cases v with
  | null => exact ⟨_, _, rfl, by decide⟩
  | bool b => cases b <;> exact ⟨_, _, rfl, by decide⟩
  | num s =>
    obtain ⟨h1, c, r, rfl⟩ := numText_spec (s := s) (by simpa [Ok] using h)
    exact ⟨c, txt r, rfl, (numChar_clean (h1 c List.mem_cons_self)).2.2.1⟩
  | str s => exact ⟨_, _, rfl, by decide⟩
  | arr l => cases l <;> exact ⟨_, _, rfl, by decide⟩
  | obj l => cases l <;> exact ⟨_, _, rfl, by decide⟩

theorem solid_member (n : Nat) (p : Str × Json) : solid (memberToks n p) := by
  obtain ⟨k, v⟩ := p
  exact ⟨_, _, rfl, by decide⟩

theorem good_comma {n : Nat} {ts : List Tok} (h : good ts = true) (hs : solid ts) : good (.ch ',' :: .nl n :: ts) = true := by
  have := good_nl (n := n) h hs
  simp only [good, Bool.and_eq_true, decide_eq_true_eq]
  exact ⟨by decide, this⟩

theorem good_close (n : Nat) {c : Char} (hc : isWs c = false) : good [.nl n, .ch c] = true := by
  have : c ≠ '\n' ∧ c ≠ '\r' := by constructor <;> rintro rfl <;> simp [isWs] at hc
  simp [good, hc, this.1, this.2]

mutual
theorem good_toks : ∀ (n : Nat) (v : Json), Ok v = true → good (toks n v) = true
  | n, .null, _ => by unfold toks; exact good_txt (by decide)
  | n, .bool b, _ => by unfold toks; exact good_txt (boolText_clean b)
  | n, .num s, h => by
    unfold toks
    exact good_txt fun c hc =>
      have := numChar_clean ((numText_spec (s := s) (by simpa [Ok] using h)).1 c hc)
      ⟨this.1, this.2.1⟩
  | n, .str s, _ => by unfold toks; exact good_txt (quote_clean s)
  | n, .arr [], _ => by unfold toks; exact good_txt (by decide)
  | n, .arr (v :: l), h => by
    rw [Ok, okList, Bool.and_eq_true] at h
    unfold toks
    have h1 := good_toks (n + 1) v h.1
    have h2 := good_elems (n + 1) l h.2
    have h3 := good_nl (n := n + 1) (good_append _ _ (good_append _ _ h1 h2) (good_close n (c := ']') (by decide)))
      (solid_append (solid_append (solid_toks (n + 1) v h.1)))
    simp only [List.cons_append]
    rw [good]
    simp only [Bool.and_eq_true, decide_eq_true_eq]
    exact ⟨by decide, h3⟩
  | n, .obj [], _ => by unfold toks; exact good_txt (by decide)
  | n, .obj (p :: l), h => by
    rw [Ok, okMembers, Bool.and_eq_true, Bool.and_eq_true] at h
    replace h := h.2
    unfold toks
    have h1 := good_member (n + 1) p h.1
    have h2 := good_members (n + 1) l h.2
    have h3 := good_nl (n := n + 1) (good_append _ _ (good_append _ _ h1 h2) (good_close n (c := '}') (by decide)))
      (solid_append (solid_append (solid_member (n + 1) p)))
    simp only [List.cons_append]
    rw [good]
    simp only [Bool.and_eq_true, decide_eq_true_eq]
    exact ⟨by decide, h3⟩
theorem good_elems : ∀ (n : Nat) (l : List Json), okList l = true → good (elemToks n l) = true
  | n, [], _ => by unfold elemToks; rfl
  | n, v :: l, h => by
    rw [okList, Bool.and_eq_true] at h
    unfold elemToks
    have h1 := good_comma (n := n) (good_append _ _ (good_toks n v h.1) (good_elems n l h.2)) (solid_append (solid_toks n v h.1))
    simpa only [List.cons_append] using h1
theorem good_member : ∀ (n : Nat) (p : Str × Json), okMember p = true → good (memberToks n p) = true
  | n, (k, v), h => by
    rw [okMember] at h
    unfold memberToks
    refine good_append _ _ (good_txt (quote_clean k)) ?_
    have := good_toks n v h
    simp only [good, Bool.and_eq_true, decide_eq_true_eq]
    exact ⟨by decide, by decide, this⟩
theorem good_members : ∀ (n : Nat) (l : List (Str × Json)), okMembers l = true → good (membersToks n l) = true
  | n, [], _ => by unfold membersToks; rfl
  | n, p :: l, h => by
    rw [okMembers, Bool.and_eq_true] at h
    unfold membersToks
    have h1 := good_comma (n := n) (good_append _ _ (good_member n p h.1) (good_members n l h.2)) (solid_append (solid_member n p))
    simpa only [List.cons_append] using h1
end

/-! ### writing -/

theorem linesFrom_ne {cur : Str} (h : cur ≠ []) (s : Str) : linesFrom cur s ≠ [] := by
  induction s generalizing cur with
  | nil => unfold linesFrom; simp [h]
  | cons c s ih =>
    unfold linesFrom
    split
    · simp
    · exact ih (by simp)

theorem joinLines_tail (f : Formatted) {ls : List Str} (h : ls ≠ []) :
    (ls.flatMap fun l => f.lineEnd ++ reindent f l) = f.lineEnd ++ joinLines f ls := by
  cases ls with
  | nil => exact absurd rfl h
  | cons a ls => simp [joinLines]

theorem linesFrom_clean (cur s t : Str) (h : ∀ c ∈ s, c ≠ '\n') : linesFrom cur (s ++ t) = linesFrom (cur ++ s) t := by
  induction s generalizing cur with
  | nil => simp
  | cons c s ih =>
    rw [List.cons_append, linesFrom, if_neg (h c List.mem_cons_self), ih _ fun c hc => h c (List.mem_cons_of_mem _ hc)]
    simp

theorem takeWhile_indent (k : Nat) (x : Char) (y : Str) (hx : isWs x = false) :
    (List.replicate k ' ' ++ x :: y).takeWhile isWs = List.replicate k ' ' := by
  induction k with
  | zero => simp [hx]
  | succ k ih =>
    rw [List.replicate_succ, List.cons_append, List.takeWhile_cons, if_pos (by decide), ih]

theorem indentChars_line (k : Nat) (x : Char) (y : Str) (hx : isWs x = false) :
    indentChars (List.replicate k ' ' ++ x :: y) = k := by
  unfold indentChars
  rw [if_neg]
  · rw [takeWhile_indent k x y hx, List.length_replicate]
  · simp [List.all_append, hx]

theorem reindent_line (f : Formatted) (k : Nat) (x : Char) (y : Str) (hx : isWs x = false) :
    reindent f (List.replicate (2 * k) ' ' ++ x :: y) = List.replicate (f.count * k) f.character ++ x :: y := by
  unfold reindent
  rw [indentChars_line _ x y hx, Nat.mul_div_cancel_left k (by decide)]
  congr 1
  rw [List.drop_left' (by simp)]

theorem stripCr_line (k : Nat) (x : Char) (y : Str) (h : '\r' ∉ x :: y) :
    stripCr (List.replicate k ' ' ++ x :: y) = List.replicate k ' ' ++ x :: y := by
  unfold stripCr
  rw [if_neg]
  intro he
  have h2 : (x :: y).getLast? = some '\r' := by
    rw [List.getLast?_append] at he
    cases hy : (x :: y).getLast? with
    | none => simp at hy
    | some z => rw [hy] at he; simpa using he
  exact h (List.mem_of_getLast? h2)

theorem flatten_two (k : Nat) : (List.replicate k [' ', ' ']).flatten = List.replicate (2 * k) ' ' := by
  induction k with
  | zero => rfl
  | succ k ih =>
    rw [List.replicate_succ, List.flatten_cons, ih, Nat.mul_succ, Nat.add_comm, List.replicate_add]
    rfl

theorem flatten_unit (n k : Nat) (c : Char) : (List.replicate k (List.replicate n c)).flatten = List.replicate (n * k) c := by
  rw [List.flatten_replicate_replicate, Nat.mul_comm]

/-- reindenting the printer's lines -/
theorem join_flat (f : Formatted) : ∀ (ts : List Tok) (k : Nat) (x : Char) (y : Str), good ts = true → isWs x = false →
    '\r' ∉ x :: y →
    joinLines f (linesFrom (List.replicate (2 * k) ' ' ++ x :: y) (flat ['\n'] [' ', ' '] ts)) =
      List.replicate (f.count * k) f.character ++ x :: y ++ flat f.lineEnd (List.replicate f.count f.character) ts
  | [], k, x, y, _, hx, _ => by
    rw [flat_nil, flat_nil, linesFrom, if_neg (by simp)]
    simp [joinLines, reindent_line f k x y hx]
  | .ch c :: ts, k, x, y, hg, hx, hr => by
    simp only [good, Bool.and_eq_true, decide_eq_true_eq] at hg
    rw [flat_ch, flat_ch, linesFrom, if_neg hg.1.1]
    have := join_flat f ts k x (y ++ [c]) hg.2 hx (by
      have := hg.1.2
      simp only [List.mem_cons, List.mem_append, List.not_mem_nil, or_false, not_or] at hr ⊢
      exact ⟨hr.1, hr.2, fun h => this h.symm⟩)
    rw [List.append_assoc, List.cons_append, this]
    simp
  | [.nl _], _, _, _, hg, _, _ => by simp [good] at hg
  | .nl _ :: .nl _ :: _, _, _, _, hg, _, _ => by simp [good] at hg
  | .nl n :: .ch c :: ts, k, x, y, hg, hx, hr => by
    simp only [good, Bool.and_eq_true, decide_eq_true_eq, Bool.not_eq_true'] at hg
    have hrec := join_flat f ts n c [] hg.2.2 hg.1 (by simpa using fun h => hg.2.1.2 h.symm)
    rw [flat_nl, flat_ch, flatten_two, flat_nl, flat_ch, flatten_unit, List.append_assoc, List.singleton_append, linesFrom,
      if_pos rfl, stripCr_line _ x y hr, linesFrom_clean _ _ _ (by
        intro d hd; rw [List.eq_of_mem_replicate hd]; decide), linesFrom, if_neg hg.2.1.1]
    have hne : linesFrom ([] ++ List.replicate (2 * n) ' ' ++ [c]) (flat ['\n'] [' ', ' '] ts) ≠ [] := linesFrom_ne (by simp) _
    rw [joinLines, joinLines_tail f hne, reindent_line f k x y hx, List.nil_append, hrec]
    simp

theorem toStringPretty_eq (f : Formatted) (h : Ok f.value = true) :
    toStringPretty f = styled f.character f.count f.lineEnd f.trailing f.value := by
  unfold toStringPretty styled serdePretty lines
  congr 1
  obtain ⟨c, r, he, hc⟩ := solid_toks 0 f.value h
  have hg := good_toks 0 f.value h
  rw [he] at hg ⊢
  simp only [good, Bool.and_eq_true, decide_eq_true_eq] at hg
  rw [flat_ch, linesFrom, if_neg hg.1.1]
  have := join_flat f r 0 c [] hg.2 hc (by simpa using fun h => hg.1.2 h.symm)
  simpa using this

/-! ### the value written -/

theorem strip_txt {s : Str} (h : ∀ c ∈ s, isWs c = false ∧ c ≠ '"') (r : Str) :
    strip .outside (s ++ r) = s ++ strip .outside r := by
  induction s with
  | nil => rfl
  | cons c s ih =>
    have hc := h c List.mem_cons_self
    rw [List.cons_append, strip, if_neg (by simp [hc.1]), step, if_neg hc.2, ih fun c hc => h c (List.mem_cons_of_mem _ hc)]
    rfl

theorem strip_ws {s : Str} (h : ∀ c ∈ s, isWs c = true) (r : Str) : strip .outside (s ++ r) = strip .outside r := by
  induction s with
  | nil => rfl
  | cons c s ih =>
    rw [List.cons_append, strip, if_pos ⟨rfl, h c List.mem_cons_self⟩, ih fun c hc => h c (List.mem_cons_of_mem _ hc)]

theorem strip_in (c : Char) (r : Str) (w : Where) (hw : w ≠ .outside) : strip w (c :: r) = c :: strip (step w c) r := by
  rw [strip, if_neg (fun h => hw h.1)]

theorem strip_esc (c : Char) (r : Str) : strip .inString (escChar c ++ r) = escChar c ++ strip .inString r := by
  rcases escChar_cases c with ⟨h, _, h2, h3⟩ | ⟨d, h, hd⟩ | ⟨d, e, h, hd, he⟩
  · rw [h, List.singleton_append, strip_in _ _ _ (by decide), step, if_neg h2, if_neg h3]
    rfl
  · rw [h]
    simp only [List.cons_append, List.nil_append]
    rw [strip_in _ _ _ (by decide), show step .inString '\\' = .afterBackslash by decide, strip_in _ _ _ (by decide), step]
  · have hn : ∀ x ∈ ['0', '1', '2', '3', '4', '5', '6', '7', '8', '9', 'a', 'b', 'c', 'd', 'e', 'f'], step .inString x = .inString := by decide
    rw [h]
    simp only [List.cons_append, List.nil_append]
    rw [strip_in _ _ _ (by decide), show step .inString '\\' = .afterBackslash by decide, strip_in _ _ _ (by decide), step,
      strip_in _ _ _ (by decide), show step .inString '0' = .inString by decide, strip_in _ _ _ (by decide),
      show step .inString '0' = .inString by decide, strip_in _ _ _ (by decide), hn d hd, strip_in _ _ _ (by decide), hn e he]

theorem strip_quote (s r : Str) : strip .outside (quote s ++ r) = quote s ++ strip .outside r := by
  have hgo : ∀ s : Str, strip .inString (s.flatMap escChar ++ '"' :: r) = s.flatMap escChar ++ '"' :: strip .outside r := by
    intro s
    induction s with
    | nil =>
      rw [List.flatMap_nil, List.nil_append, strip_in _ _ _ (by decide)]
      rfl
    | cons c s ih => rw [List.flatMap_cons, List.append_assoc, strip_esc, ih, List.append_assoc]
  unfold quote
  simp only [List.cons_append, List.append_assoc, List.nil_append]
  rw [strip, if_neg (by simp [isWs]), show step .outside '"' = .inString by decide, hgo]

section
variable {le ind : Str} (hle : ∀ c ∈ le, isWs c = true) (hind : ∀ c ∈ ind, isWs c = true)
include hle hind

theorem strip_nl (n : Nat) (r : Str) : strip .outside (le ++ (List.replicate n ind).flatten ++ r) = strip .outside r := by
  rw [strip_ws]
  intro c hc
  rcases List.mem_append.1 hc with h | h
  · exact hle c h
  · obtain ⟨l, hl, hc⟩ := List.mem_flatten.1 h
    rw [List.eq_of_mem_replicate hl] at hc
    exact hind c hc

theorem strip_ch {c : Char} (h1 : isWs c = false) (h2 : c ≠ '"') (r : Str) : strip .outside (c :: r) = c :: strip .outside r := by
  have := strip_txt (s := [c]) (by simp [h1, h2]) r
  simpa using this

mutual
theorem strip_toks : ∀ (n : Nat) (v : Json) (r : Str), Ok v = true →
    strip .outside (flat le ind (toks n v) ++ r) = compact v ++ strip .outside r
  | n, .null, r, _ => by unfold toks compact; rw [flat_txt]; exact strip_txt (by decide) r
  | n, .bool b, r, _ => by unfold toks compact; rw [flat_txt]; exact strip_txt (by cases b <;> decide) r
  | n, .num s, r, h => by
    unfold toks compact
    rw [flat_txt]
    refine strip_txt ?_ r
    intro c hc
    have := numChar_clean ((numText_spec (s := s) (by simpa [Ok] using h)).1 c hc)
    exact ⟨this.2.2.1, this.2.2.2⟩
  | n, .str s, r, _ => by unfold toks compact; rw [flat_txt]; exact strip_quote s r
  | n, .arr [], r, _ => by unfold toks compact; rw [flat_txt]; exact strip_txt (by decide) r
  | n, .arr (v :: l), r, h => by
    rw [Ok, okList, Bool.and_eq_true] at h
    unfold toks compact
    simp only [List.cons_append, flat_ch, flat_nl, flat_append, flat_nil]
    simp only [List.append_assoc, List.nil_append, List.cons_append]
    rw [strip_ch hle hind (by decide) (by decide), ← List.append_assoc le, strip_nl hle hind, strip_toks (n + 1) v _ h.1,
      strip_elems (n + 1) l _ h.2, ← List.append_assoc le, strip_nl hle hind, strip_ch hle hind (by decide) (by decide)]
  | n, .obj [], r, _ => by unfold toks compact; rw [flat_txt]; exact strip_txt (by decide) r
  | n, .obj (p :: l), r, h => by
    rw [Ok, okMembers, Bool.and_eq_true, Bool.and_eq_true] at h
    replace h := h.2
    unfold toks compact
    simp only [List.cons_append, flat_ch, flat_nl, flat_append, flat_nil]
    simp only [List.append_assoc, List.nil_append, List.cons_append]
    rw [strip_ch hle hind (by decide) (by decide), ← List.append_assoc le, strip_nl hle hind, strip_member (n + 1) p _ h.1,
      strip_members (n + 1) l _ h.2, ← List.append_assoc le, strip_nl hle hind, strip_ch hle hind (by decide) (by decide)]
theorem strip_elems : ∀ (n : Nat) (l : List Json) (r : Str), okList l = true →
    strip .outside (flat le ind (elemToks n l) ++ r) = compactElems l ++ strip .outside r
  | n, [], r, _ => by unfold elemToks compactElems; rfl
  | n, v :: l, r, h => by
    rw [okList, Bool.and_eq_true] at h
    unfold elemToks compactElems
    simp only [List.cons_append, flat_ch, flat_nl, flat_append]
    simp only [List.append_assoc]
    rw [strip_ch hle hind (by decide) (by decide), ← List.append_assoc le, strip_nl hle hind, strip_toks n v _ h.1,
      strip_elems n l _ h.2]
theorem strip_member : ∀ (n : Nat) (p : Str × Json) (r : Str), okMember p = true →
    strip .outside (flat le ind (memberToks n p) ++ r) = compactMember p ++ strip .outside r
  | n, (k, v), r, h => by
    rw [okMember] at h
    unfold memberToks compactMember
    simp only [flat_append, flat_txt, flat_ch, List.append_assoc, List.cons_append]
    rw [strip_quote, strip_ch hle hind (by decide) (by decide), strip, if_pos ⟨rfl, by decide⟩, strip_toks n v r h]
theorem strip_members : ∀ (n : Nat) (l : List (Str × Json)) (r : Str), okMembers l = true →
    strip .outside (flat le ind (membersToks n l) ++ r) = compactMembers l ++ strip .outside r
  | n, [], r, _ => by unfold membersToks compactMembers; rfl
  | n, p :: l, r, h => by
    rw [okMembers, Bool.and_eq_true] at h
    unfold membersToks compactMembers
    simp only [List.cons_append, flat_ch, flat_nl, flat_append]
    simp only [List.append_assoc]
    rw [strip_ch hle hind (by decide) (by decide), ← List.append_assoc le, strip_nl hle hind, strip_member n p _ h.1,
      strip_members n l _ h.2]
end
end

/-! ### a text has at most one value -/

/-- does not go on with a number -/
def stop : Str → Prop
  | [] => True
  | c :: _ => numChar c = false

/-- which kind of value begins with this character -/
def tag (c : Char) : Nat :=
  if c = 'n' then 0 else if c = 't' ∨ c = 'f' then 1 else if c = '"' then 3 else if c = '[' then 4 else if c = '{' then 5 else 2

/-- the kind of a value -/
def jtag : Json → Nat
  | .null => 0
  | .bool _ => 1
  | .num _ => 2
  | .str _ => 3
  | .arr _ => 4
  | .obj _ => 5

theorem numChar_tag {c : Char} (h : numChar c = true) : tag c = 2 := by
  have : ∀ d ∈ ['n', 't', 'f', '"', '[', '{'], c ≠ d := by
    intro d hd he
    subst he
    simp only [List.mem_cons, List.not_mem_nil, or_false] at hd
    rcases hd with rfl | rfl | rfl | rfl | rfl | rfl <;> revert h <;> decide
  simp only [List.mem_cons, List.not_mem_nil, or_false, forall_eq_or_imp, forall_eq] at this
  simp [tag, this]

theorem compact_head (v : Json) (h : Ok v = true) : ∃ c t, compact v = c :: t ∧ tag c = jtag v := by
  cases v with
  | null => exact ⟨_, _, rfl, by decide⟩
  | bool b => cases b <;> exact ⟨_, _, rfl, by decide⟩
  | num s =>
    obtain ⟨h1, c, r, rfl⟩ := numText_spec (s := s) (by simpa [Ok] using h)
    exact ⟨c, r, rfl, numChar_tag (h1 c List.mem_cons_self)⟩
  | str s => exact ⟨'"', _, rfl, rfl⟩
  | arr l => cases l <;> exact ⟨'[', _, rfl, rfl⟩
  | obj l => cases l <;> exact ⟨'{', _, rfl, rfl⟩

/-- the value of a hexadecimal digit -/
def hexVal (c : Char) : Nat := if c.toNat < 58 then c.toNat - 48 else c.toNat - 87

/-- reading one character of a string -/
def dec : Str → Option (Char × Str)
  | '\\' :: 'u' :: '0' :: '0' :: d :: e :: r => some (Char.ofNat (16 * hexVal d + hexVal e), r)
  | '\\' :: '"' :: r => some ('"', r)
  | '\\' :: '\\' :: r => some ('\\', r)
  | '\\' :: 'b' :: r => some ('\x08', r)
  | '\\' :: 't' :: r => some ('\t', r)
  | '\\' :: 'n' :: r => some ('\n', r)
  | '\\' :: 'f' :: r => some ('\x0c', r)
  | '\\' :: 'r' :: r => some ('\r', r)
  | '"' :: _ => none
  | c :: r => some (c, r)
  | [] => none

theorem hexVal_hexDigit (n : Nat) (h : n < 16) : hexVal (hexDigit n) = n := by
  have : ∀ n < 16, hexVal (hexDigit n) = n := by decide
  exact this n h

theorem dec_esc (c : Char) (r : Str) : dec (escChar c ++ r) = some (c, r) := by
  unfold escChar
  split_ifs with h1 h2 h3 h4 h5 h6 h7 h8
  iterate 7 subst_vars; rfl
  · simp only [List.cons_append, List.nil_append, dec]
    rw [hexVal_hexDigit _ (by omega), hexVal_hexDigit _ (by omega)]
    have : 16 * (c.toNat / 16) + c.toNat % 16 = c.toNat := by omega
    rw [this, Char.ofNat_toNat]
  · rw [List.singleton_append]
    unfold dec
    split <;> simp_all

theorem body_inj : ∀ (s t r r' : Str), s.flatMap escChar ++ '"' :: r = t.flatMap escChar ++ '"' :: r' → s = t ∧ r = r'
  | [], [], _, _, h => by simpa using h
  | [], c :: t, r, r', h => by
    have h2 := congrArg dec h
    rw [List.flatMap_cons, List.append_assoc, dec_esc] at h2
    simp [dec] at h2
  | c :: s, [], r, r', h => by
    have h2 := congrArg dec h
    rw [List.flatMap_cons, List.append_assoc, dec_esc] at h2
    simp [dec] at h2
  | c :: s, d :: t, r, r', h => by
    have h2 := congrArg dec h
    rw [List.flatMap_cons, List.append_assoc, dec_esc, List.flatMap_cons, List.append_assoc, dec_esc] at h2
    simp only [Option.some.injEq, Prod.mk.injEq] at h2
    obtain ⟨h3, h4⟩ := body_inj s t r r' h2.2
    exact ⟨by rw [h2.1, h3], h4⟩

theorem quote_inj (s t r r' : Str) (h : quote s ++ r = quote t ++ r') : s = t ∧ r = r' := by
  unfold quote at h
  simp only [List.cons_append, List.append_assoc, List.nil_append, List.cons.injEq, true_and] at h
  exact body_inj s t r r' h

theorem num_inj : ∀ (s t r r' : Str), (∀ c ∈ s, numChar c = true) → (∀ c ∈ t, numChar c = true) → stop r → stop r' →
    s ++ r = t ++ r' → s = t ∧ r = r'
  | [], [], _, _, _, _, _, _, h => ⟨rfl, h⟩
  | [], c :: t, r, r', _, h2, h3, _, h => by
    rw [List.nil_append] at h
    subst h
    have := h2 c List.mem_cons_self
    simp only [List.cons_append, stop] at h3
    rw [h3] at this; cases this
  | c :: s, [], r, r', h1, _, _, h4, h => by
    rw [List.nil_append] at h
    subst h
    have := h1 c List.mem_cons_self
    simp only [List.cons_append, stop] at h4
    rw [h4] at this; cases this
  | c :: s, d :: t, r, r', h1, h2, h3, h4, h => by
    simp only [List.cons_append, List.cons.injEq] at h
    obtain ⟨a, b⟩ := num_inj s t r r' (fun c hc => h1 c (List.mem_cons_of_mem _ hc)) (fun c hc => h2 c (List.mem_cons_of_mem _ hc)) h3 h4 h.2
    exact ⟨by rw [h.1, a], b⟩

theorem boolText_inj (b b' : Bool) (r r' : Str) (h : boolText b ++ r = boolText b' ++ r') : b = b' ∧ r = r' := by
  cases b <;> cases b' <;> simp [boolText] at h ⊢
  · exact h
  · exact h

theorem stop_elems (l : List Json) (r : Str) : stop (compactElems l ++ ']' :: r) := by
  cases l <;> simp only [compactElems, List.nil_append, List.cons_append, stop] <;> decide

theorem stop_members (l : List (Str × Json)) (r : Str) : stop (compactMembers l ++ '}' :: r) := by
  cases l <;> simp only [compactMembers, List.nil_append, List.cons_append, stop] <;> decide

theorem jtag_eq {v w : Json} {r s : Str} (hv : Ok v = true) (hw : Ok w = true) (h : compact v ++ r = compact w ++ s) :
    jtag v = jtag w := by
  obtain ⟨c, t, h1, h2⟩ := compact_head v hv
  obtain ⟨d, u, h3, h4⟩ := compact_head w hw
  rw [h1, h3] at h
  simp only [List.cons_append, List.cons.injEq] at h
  rw [← h2, ← h4, h.1]

theorem compact_ne_bracket {v : Json} (hv : Ok v = true) {c : Char} (hc : tag c = 2) (hn : numChar c = false) {r s : Str}
    (h : compact v ++ r = c :: s) : False := by
  obtain ⟨d, t, h1, h2⟩ := compact_head v hv
  rw [h1, List.cons_append, List.cons.injEq] at h
  rw [h.1, hc] at h2
  cases v <;> simp [jtag] at h2
  rename_i t
  have := (numText_spec (s := t) (by simpa [Ok] using hv)).1 c (by
    unfold compact at h1; rw [h1, h.1]; exact List.mem_cons_self)
  rw [hn] at this; cases this

mutual
theorem compact_inj : ∀ (v w : Json) (r s : Str), Ok v = true → Ok w = true → stop r → stop s →
    compact v ++ r = compact w ++ s → v = w ∧ r = s
  | .null, w, r, s, hv, hw, _, _, h => by
    have := jtag_eq hv hw h
    cases w <;> simp [jtag] at this
    exact ⟨rfl, List.append_cancel_left h⟩
  | .bool b, w, r, s, hv, hw, _, _, h => by
    have := jtag_eq hv hw h
    cases w <;> simp [jtag] at this
    unfold compact at h
    obtain ⟨h1, h2⟩ := boolText_inj _ _ _ _ h
    exact ⟨by rw [h1], h2⟩
  | .num a, w, r, s, hv, hw, hr, hs, h => by
    have := jtag_eq hv hw h
    cases w <;> simp [jtag] at this
    rename_i b
    unfold compact at h
    obtain ⟨h1, h2⟩ := num_inj a b r s (numText_spec (by simpa [Ok] using hv)).1 (numText_spec (by simpa [Ok] using hw)).1 hr hs h
    exact ⟨by rw [h1], h2⟩
  | .str a, w, r, s, hv, hw, _, _, h => by
    have := jtag_eq hv hw h
    cases w <;> simp [jtag] at this
    unfold compact at h
    obtain ⟨h1, h2⟩ := quote_inj _ _ _ _ h
    exact ⟨by rw [h1], h2⟩
  | .arr [], w, r, s, hv, hw, _, _, h => by
    have := jtag_eq hv hw h
    cases w <;> simp [jtag] at this
    rename_i l
    cases l with
    | nil => exact ⟨rfl, List.append_cancel_left h⟩
    | cons x l =>
      rw [Ok, okList, Bool.and_eq_true] at hw
      unfold compact at h
      simp only [List.cons_append, List.nil_append, List.append_assoc, List.cons.injEq, true_and] at h
      exact (compact_ne_bracket hw.1 (by decide) (by decide) h.symm).elim
  | .arr (x :: l), w, r, s, hv, hw, _, _, h => by
    have := jtag_eq hv hw h
    cases w <;> simp [jtag] at this
    rename_i l'
    rw [Ok, okList, Bool.and_eq_true] at hv
    cases l' with
    | nil =>
      unfold compact at h
      simp only [List.cons_append, List.nil_append, List.append_assoc, List.cons.injEq, true_and] at h
      exact (compact_ne_bracket hv.1 (by decide) (by decide) h).elim
    | cons y l' =>
      rw [Ok, okList, Bool.and_eq_true] at hw
      unfold compact at h
      simp only [List.cons_append, List.nil_append, List.append_assoc, List.cons.injEq, true_and] at h
      obtain ⟨h1, h2⟩ := compact_inj x y _ _ hv.1 hw.1 (stop_elems l r) (stop_elems l' s) h
      obtain ⟨h3, h4⟩ := elems_inj l l' r s hv.2 hw.2 h2
      exact ⟨by rw [h1, h3], h4⟩
  | .obj [], w, r, s, hv, hw, _, _, h => by
    have := jtag_eq hv hw h
    cases w <;> simp [jtag] at this
    rename_i l
    cases l with
    | nil => exact ⟨rfl, List.append_cancel_left h⟩
    | cons p l =>
      obtain ⟨k, x⟩ := p
      unfold compact compactMember quote at h
      simp at h
  | .obj (p :: l), w, r, s, hv, hw, _, _, h => by
    have := jtag_eq hv hw h
    cases w <;> simp [jtag] at this
    rename_i l'
    rw [Ok, okMembers, Bool.and_eq_true, Bool.and_eq_true] at hv
    replace hv := hv.2
    cases l' with
    | nil =>
      obtain ⟨k, x⟩ := p
      unfold compact compactMember quote at h
      simp at h
    | cons q l' =>
      rw [Ok, okMembers, Bool.and_eq_true, Bool.and_eq_true] at hw
      replace hw := hw.2
      unfold compact at h
      simp only [List.cons_append, List.nil_append, List.append_assoc, List.cons.injEq, true_and] at h
      obtain ⟨h1, h2⟩ := member_inj p q _ _ hv.1 hw.1 (stop_members l r) (stop_members l' s) h
      obtain ⟨h3, h4⟩ := members_inj l l' r s hv.2 hw.2 h2
      exact ⟨by rw [h1, h3], h4⟩
theorem elems_inj : ∀ (l l' : List Json) (r s : Str), okList l = true → okList l' = true →
    compactElems l ++ ']' :: r = compactElems l' ++ ']' :: s → l = l' ∧ r = s
  | [], [], _, _, _, _, h => by simpa [compactElems] using h
  | [], _ :: _, _, _, _, _, h => by simp [compactElems] at h
  | _ :: _, [], _, _, _, _, h => by simp [compactElems] at h
  | x :: l, y :: l', r, s, h1, h2, h => by
    rw [okList, Bool.and_eq_true] at h1 h2
    unfold compactElems at h
    simp only [List.cons_append, List.append_assoc, List.cons.injEq, true_and] at h
    obtain ⟨a, b⟩ := compact_inj x y _ _ h1.1 h2.1 (stop_elems l r) (stop_elems l' s) h
    obtain ⟨c, d⟩ := elems_inj l l' r s h1.2 h2.2 b
    exact ⟨by rw [a, c], d⟩
theorem member_inj : ∀ (p q : Str × Json) (r s : Str), okMember p = true → okMember q = true → stop r → stop s →
    compactMember p ++ r = compactMember q ++ s → p = q ∧ r = s
  | (k, v), (k', v'), r, s, h1, h2, hr, hs, h => by
    rw [okMember] at h1 h2
    unfold compactMember at h
    rw [List.append_assoc, List.append_assoc] at h
    obtain ⟨a, b⟩ := quote_inj _ _ _ _ h
    simp only [List.cons_append, List.cons.injEq, true_and] at b
    obtain ⟨c, d⟩ := compact_inj v v' r s h1 h2 hr hs b
    exact ⟨by rw [a, c], d⟩
theorem members_inj : ∀ (l l' : List (Str × Json)) (r s : Str), okMembers l = true → okMembers l' = true →
    compactMembers l ++ '}' :: r = compactMembers l' ++ '}' :: s → l = l' ∧ r = s
  | [], [], _, _, _, _, h => by simpa [compactMembers] using h
  | [], _ :: _, _, _, _, _, h => by simp [compactMembers] at h
  | _ :: _, [], _, _, _, _, h => by simp [compactMembers] at h
  | p :: l, q :: l', r, s, h1, h2, h => by
    rw [okMembers, Bool.and_eq_true] at h1 h2
    unfold compactMembers at h
    simp only [List.cons_append, List.append_assoc, List.cons.injEq, true_and] at h
    obtain ⟨a, b⟩ := member_inj p q _ _ h1.1 h2.1 (stop_members l r) (stop_members l' s) h
    obtain ⟨c, d⟩ := members_inj l l' r s h1.2 h2.2 b
    exact ⟨by rw [a, c], d⟩
end

/-- a text denotes at most one value -/
theorem denotes_unique {t : Str} {v w : Json} (hv : Ok v = true) (hw : Ok w = true) (h1 : Denotes t v) (h2 : Denotes t w) : v = w := by
  unfold Denotes at h1 h2
  have := compact_inj v w [] [] hv hw trivial trivial (by rw [List.append_nil, List.append_nil, ← h1, ← h2])
  exact this.1

open Classical in
/-- there is a reader as required -/
theorem reads_exists : ∃ parse, Reads parse := by
  refine ⟨fun t => if h : ∃ v, Ok v = true ∧ Denotes t v then some h.choose else none, ?_⟩
  intro t v hv hd
  have hex : ∃ v, Ok v = true ∧ Denotes t v := ⟨v, hv, hd⟩
  dsimp only
  rw [dif_pos hex, denotes_unique hex.choose_spec.1 hv hex.choose_spec.2 hd]

/-! ### detecting the style -/

theorem linesFrom_head (a : Str) (x : Char) (hx : x ≠ '\r') : ∀ (y s : Str), ∃ z L, linesFrom (a ++ x :: y) s = (a ++ x :: z) :: L := by
  intro y s
  induction s generalizing y with
  | nil => exact ⟨y, [], by rw [linesFrom, if_neg (by simp)]⟩
  | cons c s ih =>
    rw [linesFrom]
    split
    · unfold stripCr
      split
      · rename_i h
        rcases List.eq_nil_or_concat y with rfl | ⟨y', l, rfl⟩
        · simp at h; exact absurd h hx
        · refine ⟨y', linesFrom [] s, ?_⟩
          rw [List.concat_eq_append, ← List.cons_append, ← List.append_assoc, List.dropLast_concat]
      · exact ⟨y, _, rfl⟩
    · have := ih (y ++ [c])
      simpa using this

theorem lineIndent_style (c : Char) (hc : isWs c = true) (x : Char) (hx : isWs x = false) (y : Str) :
    ∀ (n m : Nat), 0 < n → ∀ o, lineIndent o m (List.replicate n c ++ x :: y) = some (c, n + m) := by
  intro n
  induction n with
  | zero => intro m h; omega
  | succ n ih =>
    intro m _ o
    rw [List.replicate_succ, List.cons_append, lineIndent, if_pos hc]
    cases n with
    | zero =>
      simp only [List.replicate_zero, List.nil_append, lineIndent]
      rw [if_neg (by simp [hx])]
      simp; omega
    | succ n => rw [ih (m + 1) (by omega)]; congr 2; omega

/-- the two usual line endings -/
def Usual (le : Str) : Prop := le = ['\n'] ∨ le = ['\r', '\n']

theorem lines_le {le : Str} (hle : Usual le) {a : Char} (ha : a ≠ '\n' ∧ a ≠ '\r') (s : Str) :
    lines (a :: le ++ s) = [a] :: linesFrom [] s := by
  unfold lines
  have h2 : ('\r' = '\n') = False := by decide
  rcases hle with rfl | rfl
  · simp [linesFrom, stripCr, ha.1, ha.2]
  · simp [linesFrom, stripCr, ha.1, h2]

theorem firstBreak_txt {s : Str} (h : ∀ c ∈ s, c ≠ '\n' ∧ c ≠ '\r') (r : Str) : firstBreak (s ++ r) = firstBreak r := by
  induction s with
  | nil => rfl
  | cons c s ih =>
    have hc := h c List.mem_cons_self
    rw [List.cons_append, ← ih fun c hc => h c (List.mem_cons_of_mem _ hc)]
    rw [firstBreak.eq_def]
    split <;> simp_all

theorem firstBreak_le {le : Str} (hle : Usual le) (s : Str) : firstBreak (le ++ s) = some le := by
  rcases hle with rfl | rfl <;> simp [firstBreak]

theorem endsInBreak_le {le : Str} (hle : Usual le) (s : Str) : endsInBreak (s ++ le) = true := by
  rcases hle with rfl | rfl <;> simp [endsInBreak, List.getLast?_append]

theorem endsInBreak_ch (s : Str) {c : Char} (hc : c ≠ '\n' ∧ c ≠ '\r') : endsInBreak (s ++ [c]) = false := by
  simp [endsInBreak, List.getLast?_append, hc.1, hc.2]

/-- a container with something in it -/
def Filled : Json → Prop
  | .arr l => l ≠ []
  | .obj l => l ≠ []
  | _ => False

/-- how the document of such a value begins and ends -/
theorem toks_filled {v : Json} (hv : Ok v = true) (hf : Filled v) : ∃ a x r z, toks 0 v = .ch a :: .nl 1 :: .ch x :: r ++ [.ch z] ∧
    (a ≠ '\n' ∧ a ≠ '\r') ∧ isWs x = false ∧ (x ≠ '\n' ∧ x ≠ '\r') ∧ (z ≠ '\n' ∧ z ≠ '\r') := by
  have hsx : ∀ x, isWs x = false → x ≠ '\n' ∧ x ≠ '\r' := by
    intro x h; constructor <;> rintro rfl <;> simp [isWs] at h
  cases v with
  | arr l =>
    cases l with
    | nil => exact absurd rfl hf
    | cons v l =>
      rw [Ok, okList, Bool.and_eq_true] at hv
      obtain ⟨x, r, h1, h2⟩ := solid_toks (0 + 1) v hv.1
      refine ⟨'[', x, r ++ elemToks (0 + 1) l ++ [.nl 0], ']', ?_, by decide, h2, hsx x h2, by decide⟩
      unfold toks
      rw [h1]
      simp
  | obj l =>
    cases l with
    | nil => exact absurd rfl hf
    | cons p l =>
      obtain ⟨x, r, h1, h2⟩ := solid_member (0 + 1) p
      refine ⟨'{', x, r ++ membersToks (0 + 1) l ++ [.nl 0], '}', ?_, by decide, h2, hsx x h2, by decide⟩
      unfold toks
      rw [h1]
      simp
  | _ => exact absurd hf id

theorem toks_flat {v : Json} (hv : Ok v = true) (hf : ¬ Filled v) : ∃ s z, toks 0 v = txt (s ++ [z]) ∧
    ∀ c ∈ s ++ [z], c ≠ '\n' ∧ c ≠ '\r' := by
  have hcl : ∀ s : Str, s ≠ [] → (∀ c ∈ s, c ≠ '\n' ∧ c ≠ '\r') → ∃ s' z, txt s = txt (s' ++ [z]) ∧ ∀ c ∈ s' ++ [z], c ≠ '\n' ∧ c ≠ '\r' := by
    intro s hs h
    refine ⟨s.dropLast, s.getLast hs, by rw [List.dropLast_concat_getLast], by rw [List.dropLast_concat_getLast]; exact h⟩
  cases v with
  | arr l =>
    have : l = [] := by by_contra h; exact hf h
    subst this
    exact hcl _ (by simp) (by decide)
  | obj l =>
    have : l = [] := by by_contra h; exact hf h
    subst this
    exact hcl _ (by simp) (by decide)
  | null => exact hcl _ (by simp) (by decide)
  | bool b => exact hcl _ (by cases b <;> simp [boolText]) (boolText_clean b)
  | num s =>
    have := numText_spec (s := s) (by simpa [Ok] using hv)
    refine hcl s (by obtain ⟨c, r, h⟩ := this.2; simp [h]) fun c hc => ?_
    have := numChar_clean (this.1 c hc)
    exact ⟨this.1, this.2.1⟩
  | str s => exact hcl _ (by simp [quote]) (quote_clean s)

theorem detect_filled {v : Json} (hv : Ok v = true) (hf : Filled v) {c : Char} (hc : isWs c = true) (hc2 : c ≠ '\n') {n : Nat} (hn : 0 < n)
    {le : Str} (hle : Usual le) (tr : Bool) :
    detectIndentation (styled c n le tr v) = some (c, n) ∧ detectLineEnd (styled c n le tr v) = some (le, tr) := by
  obtain ⟨a, x, r, z, h1, h2, h3, h4, h5⟩ := toks_filled hv hf
  unfold styled
  rw [h1]
  simp only [List.cons_append, flat_ch, flat_nl, flat_append, flat_nil, flatten_unit, Nat.mul_one]
  constructor
  · unfold detectIndentation
    have := lines_le hle h2 (List.replicate n c ++ x :: (flat le (List.replicate n c) r ++ [z] ++ if tr = true then le else []))
    simp only [List.append_assoc, List.cons_append, List.nil_append] at this ⊢
    rw [this]
    rw [linesFrom_clean [] (List.replicate n c) _ (by intro d hd; rw [List.eq_of_mem_replicate hd]; exact hc2), linesFrom, if_neg h4.1,
      List.nil_append]
    obtain ⟨y, L, he⟩ := linesFrom_head (List.replicate n c) x h4.2 [] (flat le (List.replicate n c) r ++ z :: if tr = true then le else [])
    rw [he]
    dsimp only
    rw [lineIndent_style c hc x h3 y n 0 hn, Nat.add_zero]
  · unfold detectLineEnd
    have hfb := firstBreak_txt (s := [a]) (by simpa using h2) (le ++ (List.replicate n c ++ x :: (flat le (List.replicate n c) r ++ z :: if tr = true then le else [])))
    rw [firstBreak_le hle] at hfb
    simp only [List.append_assoc, List.cons_append, List.nil_append] at hfb ⊢
    rw [hfb]
    simp only [Option.map_some, Option.some.injEq, Prod.mk.injEq, true_and]
    cases tr with
    | true =>
      have := endsInBreak_le hle (a :: (le ++ (List.replicate n c ++ x :: (flat le (List.replicate n c) r ++ [z]))))
      simpa using this
    | false =>
      have := endsInBreak_ch (a :: (le ++ (List.replicate n c ++ x :: (flat le (List.replicate n c) r)))) h5
      simpa using this

theorem detect_flat {v : Json} (hv : Ok v = true) (hf : ¬ Filled v) (c : Char) (n : Nat)
    {le : Str} (hle : Usual le) (tr : Bool) : detectLineEnd (styled c n le tr v) = if tr then some (le, true) else none := by
  obtain ⟨s, z, h1, h2⟩ := toks_flat hv hf
  unfold styled detectLineEnd
  rw [h1, flat_txt, firstBreak_txt h2]
  cases tr with
  | true =>
    have := firstBreak_le hle []
    rw [List.append_nil] at this
    rw [if_pos rfl, this, if_pos rfl, Option.map_some, endsInBreak_le hle]
  | false => simp [firstBreak]

end PJson
end Oro
