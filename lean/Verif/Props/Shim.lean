import Verif.Model.Shim
/-
C49: what the shims take from a script's header.
-/
set_option linter.unusedSectionVars false
namespace Oro
namespace Shim
variable {α : Type}

/-! ### matchers -/

/-- the greedy choice is taken if it succeeds -/
theorem star_first {p : Char → Bool} {k : Str → Str → Option α} {a r : Str} (ha : ∀ c ∈ a, p c = true)
    (hr : ∀ c, r.head? = some c → p c = false) (acc : Str) {x : α} (hk : k (acc ++ a) r = some x) : star p k acc (a ++ r) = some x := by
  induction a generalizing acc with
  | nil =>
    rw [List.append_nil] at hk
    cases r with
    | nil => exact hk
    | cons c r => rw [List.nil_append, star, if_neg (by rw [hr c rfl]; simp)]; exact hk
  | cons c a ih =>
    rw [List.cons_append, star, if_pos (ha c List.mem_cons_self),
      ih (fun d hd => ha d (List.mem_cons_of_mem _ hd)) (acc ++ [c]) (by rw [List.append_assoc]; exact hk)]
    rfl

theorem plus_first {p : Char → Bool} {k : Str → Str → Option α} {a r : Str} (hne : a ≠ []) (ha : ∀ c ∈ a, p c = true)
    (hr : ∀ c, r.head? = some c → p c = false) {x : α} (hk : k a r = some x) : plus p k (a ++ r) = some x := by
  unfold plus
  exact star_first ha hr [] (by simp [hne, hk])

/-- no choice succeeds -/
theorem star_none {p : Char → Bool} {k : Str → Str → Option α} {a r : Str}
    (hr : ∀ c, r.head? = some c → p c = false) (acc : Str) (hk : ∀ b s, b ++ s = a ++ r → r.length ≤ s.length → k (acc ++ b) s = none) :
    star p k acc (a ++ r) = none := by
  induction a generalizing acc with
  | nil =>
    have h0 := hk [] r rfl (Nat.le_refl _)
    rw [List.append_nil] at h0
    cases r with
    | nil => exact h0
    | cons c r => rw [List.nil_append, star, if_neg (by rw [hr c rfl]; simp)]; exact h0
  | cons c a ih =>
    have h0 := hk [] (c :: a ++ r) rfl (by simp; omega)
    rw [List.append_nil] at h0
    rw [List.cons_append, star]
    split
    · rw [ih (acc ++ [c]) (by
        intro b s hb hl
        have := hk (c :: b) s (by rw [List.cons_append, hb]; rfl) hl
        rw [List.append_assoc]; exact this)]
      exact h0
    · exact h0

theorem plus_none_head {p : Char → Bool} {k : Str → Str → Option α} {c : Char} {s : Str} (h : p c = false) : plus p k (c :: s) = none := by
  unfold plus
  rw [star, if_neg (by rw [h]; simp)]
  rfl

theorem plus_nil {p : Char → Bool} {k : Str → Str → Option α} : plus p k [] = none := rfl

theorem lit_append (t s : Str) (k : Str → Option α) : lit t k (t ++ s) = k s := by
  unfold lit
  rw [if_pos (by simp [List.isPrefixOf_iff_prefix]), List.drop_left]

theorem lit_none {t s : Str} {k : Str → Option α} (h : ¬ t <+: s) : lit t k s = none := by
  unfold lit
  rw [if_neg (by rwa [List.isPrefixOf_iff_prefix])]

/-! ### headers -/

/-- white space -/
def Spaces (w : Str) : Prop := ∀ c ∈ w, space c = true
/-- a word without white space -/
def Word (w : Str) : Prop := w ≠ [] ∧ ∀ c ∈ w, space c = false

/-- one assignment with the white space after it -/
structure Assign where
  key : Str
  value : Str
  gap : Str

/-- it is well formed: one `=` only -/
def Assign.Ok (a : Assign) : Prop :=
  Word a.key ∧ '=' ∉ a.key ∧ Word a.value ∧ '=' ∉ a.value ∧ a.gap ≠ [] ∧ Spaces a.gap

/-- its text -/
def Assign.text (a : Assign) : Str := a.key ++ '=' :: a.value ++ a.gap

/-- what follows the program: nothing, or a blank and more -/
def ArgsText (s : Str) : Prop := s = [] ∨ ∃ c t, s = c :: t ∧ (c = ' ' ∨ c = '\t')

theorem Word.solid {w : Str} (h : Word w) : ∀ c ∈ w, solid c = true := by
  intro c hc
  have := h.2 c hc
  simp only [space, Bool.or_eq_false_iff, decide_eq_false_iff_not] at this
  simp [Shim.solid, this]

theorem Word.key {w : Str} (h : Word w) (he : '=' ∉ w) : ∀ c ∈ w, keyChar c = true := by
  intro c hc
  have h2 := h.2 c hc
  have h3 : c ≠ '=' := fun e => he (e ▸ hc)
  simp only [space, Bool.or_eq_false_iff, decide_eq_false_iff_not] at h2
  simp [keyChar, h2, h3]

theorem space_key {c : Char} (h : c = ' ' ∨ c = '\t') : keyChar c = false ∧ solid c = false := by
  rcases h with rfl | rfl <;> decide

theorem args_head {s : Str} (h : ArgsText s) : ∀ c, s.head? = some c → c = ' ' ∨ c = '\t' := by
  intro c hc
  rcases h with rfl | ⟨d, t, rfl, hd⟩
  · cases hc
  · cases hc; exact hd

theorem progArgs_ok (vars : Option Str) {prog args : Str} (hp : Word prog) (ha : ArgsText args) :
    progArgs vars (prog ++ args) = some ⟨vars, prog, args⟩ := by
  unfold progArgs
  exact plus_first hp.1 hp.solid (fun c hc => (space_key (args_head ha c hc)).2) rfl

/-- no assignment begins here -/
theorem assigns_stop {k : Str → Str → Option α} {n : Nat} {acc prog args : Str} (he : '=' ∉ prog) (ha : ArgsText args) :
    assigns k n acc (prog ++ args) = k acc (prog ++ args) := by
  cases n with
  | zero => rfl
  | succ n =>
    rw [assigns]
    have : plus keyChar (fun a r => lit ['='] (plus keyChar fun b r => plus space (fun w r => assigns k n (acc ++ a ++ '=' :: b ++ w) r) r) r)
        (prog ++ args) = none := by
      unfold plus
      refine star_none (fun c hc => (space_key (args_head ha c hc)).1) [] ?_
      intro b s hb hl
      dsimp only
      rw [List.nil_append]
      split
      · rfl
      · refine lit_none ?_
        intro hx
        obtain ⟨t, rfl⟩ := hx
        -- the remainder begins inside the program or with the arguments
        rcases List.append_eq_append_iff.1 hb with ⟨m, h1, h2⟩ | ⟨m, h1, h2⟩
        · -- b ++ m = prog
          cases m with
          | nil =>
            rw [List.nil_append] at h2
            have := args_head ha '=' (by rw [← h2]; rfl)
            rcases this with h | h <;> cases h
          | cons c m =>
            cases h2
            exact he (by rw [h1]; simp)
        · -- prog ++ m = b: then s is a part of args; it is all of it
          rw [h2] at hl
          have hm : m = [] := by
            cases m with
            | nil => rfl
            | cons c m => simp at hl; omega
          subst hm
          rw [List.nil_append] at h2
          have := args_head ha '=' (by rw [h2]; rfl)
          rcases this with h | h <;> cases h
    rw [this]; rfl

/-- the texts of assignments -/
def textOf (l : List Assign) : Str := l.flatMap Assign.text

theorem gap_key {a : Assign} (h : a.Ok) : ∃ c t, a.gap = c :: t ∧ space c = true := by
  obtain ⟨_, _, _, _, h5, h6⟩ := h
  cases hg : a.gap with
  | nil => exact absurd hg h5
  | cons c t => exact ⟨c, t, rfl, h6 c (by rw [hg]; exact List.mem_cons_self)⟩

/-- ordinary white space only, so that the value ends there -/
def Blanks (w : Str) : Prop := ∀ c ∈ w, c = ' ' ∨ c = '\t'

theorem assigns_ok {k : Str → Str → Option α} {l : List Assign} (hl : ∀ a ∈ l, a.Ok ∧ Blanks a.gap) {prog args : Str} (hp : Word prog)
    (he : '=' ∉ prog) (ha : ArgsText args) {x : α} (n : Nat) (hn : l.length ≤ n) (acc : Str)
    (hk : k (acc ++ textOf l) (prog ++ args) = some x) :
    assigns k n acc (textOf l ++ (prog ++ args)) = some x := by
  induction l generalizing n acc with
  | nil =>
    rw [textOf, List.flatMap_nil, List.append_nil] at hk
    rw [textOf, List.flatMap_nil, List.nil_append, assigns_stop he ha]
    exact hk
  | cons a l ih =>
    cases n with
    | zero => simp at hn
    | succ n =>
      obtain ⟨⟨h1, h2, h3, h4, h5, h6⟩, hb⟩ := hl a List.mem_cons_self
      have e : textOf (a :: l) ++ (prog ++ args) = a.key ++ ('=' :: (a.value ++ (a.gap ++ (textOf l ++ (prog ++ args))))) := by
        simp [textOf, Assign.text, List.append_assoc]
      rw [e, assigns]
      have hnext : ∀ c, (textOf l ++ (prog ++ args)).head? = some c → space c = false := by
        intro c hc
        cases l with
        | nil =>
          cases hpr : prog with
          | nil => exact absurd hpr hp.1
          | cons d p =>
            rw [hpr] at hc
            cases hc
            exact hp.2 c (by rw [hpr]; exact List.mem_cons_self)
        | cons b l =>
          obtain ⟨⟨hb1, _⟩, _⟩ := hl b (List.mem_cons_of_mem _ List.mem_cons_self)
          cases hkb : b.key with
          | nil => exact absurd hkb hb1.1
          | cons d p =>
            simp only [textOf, List.flatMap_cons, Assign.text, hkb] at hc
            cases hc
            exact hb1.2 c (by rw [hkb]; exact List.mem_cons_self)
      have hgap : ∀ c, (a.gap ++ (textOf l ++ (prog ++ args))).head? = some c → keyChar c = false := by
        intro c hc
        cases hg : a.gap with
        | nil => exact absurd hg h5
        | cons d t =>
          rw [hg] at hc
          cases hc
          exact (space_key (hb c (by rw [hg]; exact List.mem_cons_self))).1
      have hstep : plus keyChar (fun a r => lit ['='] (plus keyChar fun b r => plus space (fun w r => assigns k n (acc ++ a ++ '=' :: b ++ w) r) r) r)
          (a.key ++ ('=' :: (a.value ++ (a.gap ++ (textOf l ++ (prog ++ args)))))) = some x := by
        refine plus_first h1.1 (h1.key h2) (fun c hc => by cases hc; decide) ?_
        rw [show '=' :: (a.value ++ (a.gap ++ (textOf l ++ (prog ++ args)))) = ['='] ++ (a.value ++ (a.gap ++ (textOf l ++ (prog ++ args)))) from rfl,
          lit_append]
        refine plus_first h3.1 (h3.key h4) hgap ?_
        refine plus_first h5 h6 hnext ?_
        refine ih (fun b hb => hl b (List.mem_cons_of_mem _ hb)) n (by simpa using hn) _ ?_
        rw [← hk]
        simp [textOf, Assign.text, List.append_assoc]
      rw [hstep]; rfl

/-- C49 (headers with env): the environment assignments, the program and its arguments are found, with or without `-S`. -/
theorem C49_env {w0 w1 wS : Str} {dashS : Bool} {l : List Assign} {prog args : Str} (h0 : Spaces w0) (h1 : w1 ≠ []) (h1' : Spaces w1)
    (hS : dashS = true → wS ≠ [] ∧ Spaces wS) (hl : ∀ a ∈ l, a.Ok ∧ Blanks a.gap) (hp : Word prog) (he : '=' ∉ prog) (ha : ArgsText args)
    (hnS : dashS = false → l = [] → prog ≠ kS) :
    header (['#', '!'] ++ (w0 ++ (kEnv ++ (w1 ++ ((if dashS then kS ++ wS else []) ++ (textOf l ++ (prog ++ args))))))) =
      some ⟨some (textOf l), prog, args⟩ := by
  unfold header
  rw [lit_append]
  refine star_first h0 (fun c hc => by cases hc; decide) [] ?_
  have hkey : ∀ r, r = textOf l ++ (prog ++ args) →
      assigns (fun v r => progArgs (some v) r) r.length [] r = some ⟨some (textOf l), prog, args⟩ := by
    rintro r rfl
    refine assigns_ok hl hp he ha _ ?_ [] ?_
    · have : ∀ l : List Assign, (∀ a ∈ l, a.Ok ∧ Blanks a.gap) → l.length ≤ (textOf l).length := by
        intro l
        induction l with
        | nil => intro _; simp
        | cons a l ih =>
          intro hl
          have := ih fun b hb => hl b (List.mem_cons_of_mem _ hb)
          simp only [textOf, List.flatMap_cons, List.length_append, List.length_cons, Assign.text] at this ⊢
          omega
      have := this l hl
      simp only [List.length_append]
      omega
    · rw [List.nil_append]; exact progArgs_ok _ hp ha
  have henv : envPart (fun v r => progArgs (some v) r) (kEnv ++ (w1 ++ ((if dashS then kS ++ wS else []) ++ (textOf l ++ (prog ++ args))))) =
      some ⟨some (textOf l), prog, args⟩ := by
    unfold envPart
    rw [lit_append]
    have hfirst : ∀ c, (textOf l ++ (prog ++ args)).head? = some c → space c = false := by
      intro c hc
      cases l with
      | nil =>
        cases hpr : prog with
        | nil => exact absurd hpr hp.1
        | cons d p =>
          rw [hpr] at hc
          cases hc
          exact hp.2 c (by rw [hpr]; exact List.mem_cons_self)
      | cons b l =>
        obtain ⟨⟨hb1, _⟩, _⟩ := hl b List.mem_cons_self
        cases hkb : b.key with
        | nil => exact absurd hkb hb1.1
        | cons d p =>
          simp only [textOf, List.flatMap_cons, Assign.text, hkb] at hc
          cases hc
          exact hb1.2 c (by rw [hkb]; exact List.mem_cons_self)
    cases dashS with
    | true =>
      obtain ⟨hS1, hS2⟩ := hS rfl
      simp only [if_true]
      refine plus_first h1 h1' (fun c hc => by cases hc; decide) ?_
      rw [List.append_assoc, lit_append, plus_first hS1 hS2 hfirst (hkey _ rfl)]
      rfl
    | false =>
      simp only [Bool.false_eq_true, if_false, List.nil_append]
      refine plus_first h1 h1' hfirst ?_
      have hno : lit kS (plus space fun _ r => assigns (fun v r => progArgs (some v) r) r.length [] r) (textOf l ++ (prog ++ args)) = none := by
        by_cases hpre : kS <+: textOf l ++ (prog ++ args)
        · obtain ⟨t, ht⟩ := hpre
          rw [← ht, lit_append]
          cases t with
          | nil => rfl
          | cons c t =>
            refine plus_none_head ?_
            -- the third character is part of a word, or an equals sign
            cases l with
            | nil =>
              have hne := hnS rfl rfl
              simp only [textOf, List.flatMap_nil, List.nil_append] at ht
              rcases List.append_eq_append_iff.1 ht with ⟨m, g1, g2⟩ | ⟨m, g1, g2⟩
              · -- prog = -S ++ m
                cases m with
                | nil => rw [List.append_nil] at g1; exact absurd g1 hne
                | cons d m =>
                  cases g2
                  exact hp.2 c (by rw [g1]; simp)
              · -- -S = prog ++ m
                cases m with
                | nil => rw [List.append_nil] at g1; exact absurd g1.symm hne
                | cons d m =>
                  exfalso
                  -- then the arguments begin with `-` or `S`
                  have hd := args_head ha d (by rw [g2]; rfl)
                  have : d ∈ kS := by rw [g1]; simp
                  simp only [kS, List.mem_cons, List.not_mem_nil, or_false] at this
                  rcases this with rfl | rfl <;> rcases hd with h | h <;> cases h
            | cons b l =>
              obtain ⟨⟨hb1, hb2, hb3, _⟩, _⟩ := hl b List.mem_cons_self
              have e : textOf (b :: l) ++ (prog ++ args) = (b.key ++ '=' :: b.value) ++ (b.gap ++ (textOf l ++ (prog ++ args))) := by
                simp [textOf, Assign.text, List.append_assoc]
              rw [e] at ht
              have hlen : (kS : Str).length < (b.key ++ '=' :: b.value).length := by
                have := List.length_pos_iff.2 hb1.1
                have := List.length_pos_iff.2 hb3.1
                simp only [kS, List.length_append, List.length_cons, List.length_nil]
                omega
              rcases List.append_eq_append_iff.1 ht with ⟨m, g1, g2⟩ | ⟨m, g1, g2⟩
              · cases m with
                | nil => rw [List.append_nil] at g1; rw [g1] at hlen; simp at hlen
                | cons d m =>
                  cases g2
                  have hc : c ∈ b.key ++ '=' :: b.value := by rw [g1]; simp
                  simp only [List.mem_append, List.mem_cons] at hc
                  rcases hc with h | rfl | h
                  · exact hb1.2 c h
                  · decide
                  · exact hb3.2 c h
              · rw [g1] at hlen; simp at hlen; omega
        · exact lit_none hpre
      rw [hno]
      exact hkey _ rfl
  rw [henv]; rfl

/-- C49 (headers without env): the program and its arguments are found. -/
theorem C49_direct {w0 prog args : Str} (h0 : Spaces w0) (hp : Word prog) (ha : ArgsText args) (hne : prog ≠ kEnv) :
    header (['#', '!'] ++ (w0 ++ (prog ++ args))) = some ⟨none, prog, args⟩ := by
  unfold header
  rw [lit_append]
  refine star_first h0 ?_ [] ?_
  · intro c hc
    cases hpr : prog with
    | nil => exact absurd hpr hp.1
    | cons d p =>
      rw [hpr] at hc
      cases hc
      exact hp.2 c (by rw [hpr]; exact List.mem_cons_self)
  · have hno : envPart (fun v r => progArgs (some v) r) (prog ++ args) = none := by
      unfold envPart
      by_cases hpre : kEnv <+: prog ++ args
      · obtain ⟨t, ht⟩ := hpre
        rw [← ht, lit_append]
        cases t with
        | nil => rfl
        | cons c t =>
          refine plus_none_head ?_
          rcases List.append_eq_append_iff.1 ht with ⟨m, g1, g2⟩ | ⟨m, g1, g2⟩
          · cases m with
            | nil => rw [List.append_nil] at g1; exact absurd g1 hne
            | cons d m =>
              cases g2
              exact hp.2 c (by rw [g1]; simp)
          · cases m with
            | nil => rw [List.append_nil] at g1; exact absurd g1.symm hne
            | cons d m =>
              exfalso
              have hd := args_head ha d (by rw [g2]; rfl)
              have : d ∈ kEnv := by rw [g1]; simp
              rcases hd with rfl | rfl <;> exact absurd this (by decide)
      · exact lit_none hpre
    rw [hno]
    exact progArgs_ok none hp ha

/-- C49 is false of the code for a value with an equals sign: it is taken for the program. -/
theorem C49_equals_fails : header (['#', '!'] ++ kEnv ++ " A=b=c node".toList) =
    some ⟨some [], "A=b=c".toList, " node".toList⟩ := by decide

/-! ### references -/

/-- the characters that end the name of a variable -/
def EndsName (c : Char) : Prop := c ∈ ['$', '@', '#', '?', '-', ' ', '\t', '{', '}', ':']

theorem varChar_iff (c : Char) : varChar c = true ↔ ¬ EndsName c := by
  simp [varChar, EndsName, and_assoc]

theorem varChar_false (c : Char) : varChar c = false ↔ EndsName c := by
  rw [← Bool.not_eq_true, varChar_iff, Classical.not_not]

/-- a part of a value: text without `$`, a reference, or a `$` that begins no reference -/
inductive Piece where
  | plain (s : Str)
  | ref (v : Str) (braces : Bool)
  | dollar

/-- its text -/
def Piece.text : Piece → Str
  | .plain s => s
  | .ref v false => '$' :: v
  | .ref v true => '$' :: '{' :: v ++ ['}']
  | .dollar => ['$']

/-- no name begins here, with or without a brace -/
def NoName (s : Str) : Prop :=
  s = [] ∨ (∃ c t, s = c :: t ∧ c ≠ '{' ∧ EndsName c) ∨ s = ['{'] ∨ ∃ c t, s = '{' :: c :: t ∧ EndsName c

/-- well-formed sequences: after a reference without braces comes something that ends it, and is not a closing brace; after
a lone `$` comes nothing that could be a name -/
def PiecesOk : List Piece → Prop
  | [] => True
  | .plain s :: l => '$' ∉ s ∧ PiecesOk l
  | .ref v b :: l => v ≠ [] ∧ (∀ c ∈ v, ¬ EndsName c) ∧ PiecesOk l ∧
      (b = false → ∀ c, (l.flatMap Piece.text).head? = some c → EndsName c ∧ c ≠ '}')
  | .dollar :: l => PiecesOk l ∧ NoName (l.flatMap Piece.text)

/-- what is to become of it, for `f` the way to refer to a variable -/
def Piece.rewritten (f : Str → Str) : Piece → Str
  | .plain s => s
  | .ref v _ => f v
  | .dollar => ['$']

theorem rewrite_plain (f : Str → Str) {s t : Str} (h : '$' ∉ s) (n : Nat) : rewrite f (s.length + n) (s ++ t) = s ++ rewrite f n t := by
  induction s with
  | nil => simp
  | cons c s ih =>
    simp only [List.mem_cons, not_or] at h
    rw [List.length_cons, show s.length + 1 + n = (s.length + n) + 1 by omega, List.cons_append, rewrite, if_neg (Ne.symm h.1), ih h.2]
    rfl

theorem rewrite_enough (f : Str → Str) : ∀ (n m : Nat) (s : Str), s.length ≤ n → s.length ≤ m → rewrite f n s = rewrite f m s := by
  have hlen : ∀ (s v r : Str), reference s = some (v, r) → r.length ≤ s.length := by
    intro s v r h
    unfold reference at h
    split at h
    · cases h
    · cases h
      have h1 : ∀ s : Str, (dropClose s).length ≤ s.length := by
        intro s; unfold dropClose; split <;> simp
      have h2 : (dropOpen s).length ≤ s.length := by unfold dropOpen; split <;> simp
      have h3 := (List.dropWhile_sublist varChar (l := dropOpen s)).length_le
      have := h1 ((dropOpen s).dropWhile varChar)
      omega
  intro n
  induction n with
  | zero =>
    intro m s h1 h2
    have : s = [] := List.length_eq_zero_iff.1 (by omega)
    subst this
    cases m <;> rfl
  | succ n ih =>
    intro m s h1 h2
    cases s with
    | nil => cases m <;> rfl
    | cons c s =>
      cases m with
      | zero => simp at h2
      | succ m =>
        simp only [List.length_cons] at h1 h2
        rw [rewrite, rewrite]
        split
        · cases hr : reference s with
          | none => dsimp only; rw [ih m s (by omega) (by omega)]
          | some x =>
            obtain ⟨v, r⟩ := x
            have := hlen s v r hr
            dsimp only
            rw [ih m r (by omega) (by omega)]
        · rw [ih m s (by omega) (by omega)]

theorem reference_ref {v : Str} {b : Bool} {t : Str} (h1 : v ≠ []) (h2 : ∀ c ∈ v, varChar c = true)
    (h3 : b = false → ∀ c, t.head? = some c → varChar c = false ∧ c ≠ '}') :
    reference ((if b then '{' :: v ++ ['}'] else v) ++ t) = some (v, t) := by
  have htw : ∀ r : Str, (∀ c, r.head? = some c → varChar c = false) → (v ++ r).takeWhile varChar = v ∧ (v ++ r).dropWhile varChar = r := by
    intro r hr
    cases r with
    | nil =>
      rw [List.append_nil]
      have key : ∀ l : Str, (∀ c ∈ l, varChar c = true) → l.takeWhile varChar = l ∧ l.dropWhile varChar = [] := by
        intro l
        induction l with
        | nil => intro _; exact ⟨rfl, rfl⟩
        | cons c l ih =>
          intro h
          have h0 := h c List.mem_cons_self
          obtain ⟨i1, i2⟩ := ih fun d hd => h d (List.mem_cons_of_mem _ hd)
          rw [List.takeWhile_cons, List.dropWhile_cons, h0]
          simp only [if_true, i1, i2, and_self]
      exact key v h2
    | cons c r =>
      have := hr c rfl
      rw [List.takeWhile_append_of_pos h2, List.dropWhile_append_of_pos h2, List.takeWhile_cons, List.dropWhile_cons]
      simp [this]
  obtain ⟨c0, v0, rfl⟩ := List.exists_cons_of_ne_nil h1
  cases b with
  | true =>
    simp only [if_true]
    have e : dropOpen ('{' :: (c0 :: v0) ++ ['}'] ++ t) = (c0 :: v0) ++ ('}' :: t) := by simp [dropOpen]
    obtain ⟨g1, g2⟩ := htw ('}' :: t) (by rintro c hc; cases hc; decide)
    unfold reference
    rw [e, g1, g2]
    rfl
  | false =>
    simp only [Bool.false_eq_true, if_false]
    have hb : c0 ≠ '{' := fun e => by have := h2 c0 List.mem_cons_self; rw [e] at this; revert this; decide
    have e : dropOpen ((c0 :: v0) ++ t) = (c0 :: v0) ++ t := by
      unfold dropOpen
      split
      · rename_i e; cases e; exact absurd rfl hb
      · rfl
    obtain ⟨g1, g2⟩ := htw t (fun c hc => (h3 rfl c hc).1)
    unfold reference
    rw [e, g1, g2]
    have : dropClose t = t := by
      unfold dropClose
      split
      · exact absurd rfl (h3 rfl '}' rfl).2
      · rfl
    rw [this]

theorem reference_none {s : Str} (h : NoName s) : reference s = none := by
  have key : ∀ (c : Char) (t : Str), EndsName c → (c :: t).takeWhile varChar = [] := fun c t hc => by
    rw [List.takeWhile_cons, (varChar_false c).2 hc]; rfl
  unfold reference
  rcases h with rfl | ⟨c, t, rfl, h1, h2⟩ | rfl | ⟨c, t, rfl, h2⟩
  · rfl
  · have e : dropOpen (c :: t) = c :: t := by
      unfold dropOpen
      split
      · rename_i e; cases e; exact absurd rfl h1
      · rfl
    rw [e, key c t h2]
  · rfl
  · rw [show dropOpen ('{' :: c :: t) = c :: t from rfl, key c t h2]

theorem rewrite_pieces (f : Str → Str) : ∀ (l : List Piece), PiecesOk l → ∀ n, (l.flatMap Piece.text).length ≤ n →
    rewrite f n (l.flatMap Piece.text) = l.flatMap (Piece.rewritten f) := by
  intro l
  induction l with
  | nil => intro _ n _; cases n <;> rfl
  | cons p l ih =>
    intro hok n hn
    cases p with
    | plain s =>
      obtain ⟨h1, h2⟩ := hok
      rw [List.flatMap_cons, List.flatMap_cons, ← ih h2 _ (Nat.le_refl _)]
      rw [List.flatMap_cons, List.length_append] at hn
      have e : Piece.text (.plain s) = s := rfl
      rw [e] at hn ⊢
      rw [rewrite_enough f n (s.length + (l.flatMap Piece.text).length) _ (by simpa using hn) (by simp), rewrite_plain f h1]
      rfl
    | ref v b =>
      obtain ⟨h1, h2, h3, h4⟩ := hok
      rw [List.flatMap_cons, List.flatMap_cons, ← ih h3 _ (Nat.le_refl _)]
      have e : Piece.text (.ref v b) = '$' :: (if b then '{' :: v ++ ['}'] else v) := by cases b <;> rfl
      rw [List.flatMap_cons, e] at hn
      rw [e]
      cases n with
      | zero => simp at hn
      | succ n =>
        rw [List.cons_append, rewrite, if_pos rfl, reference_ref h1 (fun c hc => (varChar_iff c).2 (h2 c hc))
          fun hb c hc => ⟨(varChar_false c).2 (h4 hb c hc).1, (h4 hb c hc).2⟩]
        dsimp only
        simp only [List.cons_append, List.length_cons, List.length_append] at hn
        rw [rewrite_enough f n (l.flatMap Piece.text).length _ (by omega) (Nat.le_refl _)]
        rfl
    | dollar =>
      obtain ⟨h1, h2⟩ := hok
      rw [List.flatMap_cons, List.flatMap_cons, ← ih h1 _ (Nat.le_refl _)]
      rw [List.flatMap_cons] at hn
      cases n with
      | zero => simp [Piece.text] at hn
      | succ n =>
        rw [show Piece.text .dollar = ['$'] from rfl, List.singleton_append, rewrite, if_pos rfl, reference_none h2]
        dsimp only
        simp only [Piece.text, List.cons_append, List.nil_append, List.length_cons] at hn
        rw [rewrite_enough f n (l.flatMap Piece.text).length _ (by omega) (Nat.le_refl _)]
        rfl

/-- C49 (references): in a value made of text and references, with or without braces, every reference becomes a pair of
percent signs around its name, and all other text stays as it is. -/
theorem C49_references (l : List Piece) (h : PiecesOk l) :
    percent (l.flatMap Piece.text) = l.flatMap (Piece.rewritten fun v => '%' :: v ++ ['%']) :=
  rewrite_pieces _ l h _ (Nat.le_refl _)

/-- C49 (references, PowerShell): the same with `${env:…}`. -/
theorem C49_interpolated (l : List Piece) (h : PiecesOk l) :
    interpolate (l.flatMap Piece.text) = l.flatMap (Piece.rewritten fun v => ['$', '{', 'e', 'n', 'v', ':'] ++ v ++ ['}']) :=
  rewrite_pieces _ l h _ (Nat.le_refl _)

/-- C49 (plain text): a value without `$` is not altered. -/
theorem C49_plain (s : Str) (h : '$' ∉ s) : percent s = s := by
  have := C49_references [.plain s] ⟨h, trivial⟩
  simpa [Piece.text, Piece.rewritten] using this

/-- C49 is false of the code for a path that begins with a variable: the rest of the path is taken into the variable's name
(`$HOME/lib` becomes `%HOME/lib%`, not `%HOME%/lib`). -/
theorem C49_path_fails (v t : Str) (h1 : ∀ c ∈ v, ¬ EndsName c) (h2 : ∀ c ∈ t, ¬ EndsName c) :
    percent ('$' :: v ++ '/' :: t) = '%' :: v ++ '/' :: t ++ ['%'] := by
  have := C49_references [.ref (v ++ '/' :: t) false] ⟨by simp, by
    intro c hc
    simp only [List.mem_append, List.mem_cons] at hc
    rcases hc with h | rfl | h
    · exact h1 c h
    · simp [EndsName]
    · exact h2 c h, trivial, by intro _ c hc; simp at hc⟩
  simpa [Piece.text, Piece.rewritten, List.append_assoc] using this

/-- C49 is false of the code for a closing brace after a reference without braces: it disappears. -/
theorem C49_brace_fails (v t : Str) (h1 : v ≠ []) (h2 : ∀ c ∈ v, ¬ EndsName c) (ht : '$' ∉ t) :
    percent ('$' :: v ++ '}' :: t) = '%' :: v ++ '%' :: t := by
  replace h2 : ∀ c ∈ v, varChar c = true := fun c hc => (varChar_iff c).2 (h2 c hc)
  have hr : reference (v ++ '}' :: t) = some (v, t) := by
    obtain ⟨c0, v0, rfl⟩ := List.exists_cons_of_ne_nil h1
    have hb : c0 ≠ '{' := fun e => by have := h2 c0 List.mem_cons_self; rw [e] at this; revert this; decide
    have e : dropOpen ((c0 :: v0) ++ '}' :: t) = (c0 :: v0) ++ '}' :: t := by
      unfold dropOpen
      split
      · rename_i e; cases e; exact absurd rfl hb
      · rfl
    unfold reference
    rw [e, List.takeWhile_append_of_pos h2, List.dropWhile_append_of_pos h2]
    simp [varChar, dropClose]
  unfold percent
  rw [show ('$' :: v ++ '}' :: t).length = (v ++ '}' :: t).length + 1 from rfl, List.cons_append, rewrite, if_pos rfl, hr]
  dsimp only
  have := rewrite_plain (fun v => '%' :: v ++ ['%']) (t := []) ht ((v ++ '}' :: t).length - t.length)
  rw [List.append_nil] at this
  rw [show (v ++ '}' :: t).length = t.length + ((v ++ '}' :: t).length - t.length) by simp; omega, this]
  cases ((v ++ '}' :: t).length - t.length) <;> simp [rewrite]

/-! ### assignments -/

theorem words_text {w : Str} (hw : ∀ c ∈ w, space c = false) (cur : Str) (s : Str) : words cur (w ++ s) = words (cur ++ w) s := by
  induction w generalizing cur with
  | nil => simp
  | cons c w ih =>
    rw [List.cons_append, words, if_neg (by rw [hw c List.mem_cons_self]; simp), ih fun d hd => hw d (List.mem_cons_of_mem _ hd),
      List.append_assoc]
    rfl

theorem words_gap {g : Str} (hg : Spaces g) (hne : g ≠ []) {cur : Str} (hc : cur ≠ []) (s : Str) : words cur (g ++ s) = cur :: words [] s := by
  obtain ⟨c, g, rfl⟩ := List.exists_cons_of_ne_nil hne
  rw [List.cons_append, words, if_pos (hg c List.mem_cons_self), if_neg hc]
  congr 1
  have hg' : ∀ c ∈ g, space c = true := fun c hc => hg c (List.mem_cons_of_mem _ hc)
  clear hg hne
  induction g with
  | nil => rfl
  | cons d g ih =>
    rw [List.cons_append, words, if_pos (hg' d List.mem_cons_self), if_pos rfl, ih fun c hc => hg' c (List.mem_cons_of_mem _ hc)]

theorem words_assigns {l : List Assign} (hl : ∀ a ∈ l, a.Ok) : words [] (textOf l) = l.map fun a => a.key ++ '=' :: a.value := by
  induction l with
  | nil => rfl
  | cons a l ih =>
    obtain ⟨h1, h2, h3, h4, h5, h6⟩ := hl a List.mem_cons_self
    have e : textOf (a :: l) = (a.key ++ '=' :: a.value) ++ (a.gap ++ textOf l) := by simp [textOf, Assign.text, List.append_assoc]
    rw [e, words_text (w := a.key ++ '=' :: a.value) (by
      intro c hc
      simp only [List.mem_append, List.mem_cons] at hc
      rcases hc with h | rfl | h
      · exact h1.2 c h
      · decide
      · exact h3.2 c h), List.nil_append, words_gap h6 h5 (by simp), ih fun b hb => hl b (List.mem_cons_of_mem _ hb)]
    rfl

theorem command_assign (f : Str → Str → Str) {k v : Str} (hk : '=' ∉ k) : command f (k ++ '=' :: v) = f k v := by
  have h : ∀ c ∈ k, (decide (c ≠ '=')) = true := fun c hc => by simpa using fun (e : c = '=') => hk (e ▸ hc)
  unfold command
  rw [if_pos (by simp), List.takeWhile_append_of_pos h, List.dropWhile_append_of_pos h]
  simp

/-- C49 (assignments, cmd): the assignments found in a header become one `@SET` command each, in order, with the
references rewritten. -/
theorem C49_set {l : List Assign} (hl : ∀ a ∈ l, a.Ok) :
    setCommands (textOf l) = l.flatMap fun a => ['@', 'S', 'E', 'T', ' '] ++ a.key ++ '=' :: percent a.value ++ ['\r', '\n'] := by
  unfold setCommands
  rw [words_assigns hl, List.flatMap_map]
  simp only [List.flatMap_def]
  congr 1
  refine List.map_congr_left ?_
  intro a ha
  obtain ⟨h1, h2, h3, _⟩ := hl a ha
  rw [command_assign _ h2, setCommand, if_neg (by rintro (h | h); exact h1.1 h; exact h3.1 h)]

/-- C49 (assignments, PowerShell): likewise one `$env:` command each. -/
theorem C49_envset {l : List Assign} (hl : ∀ a ∈ l, a.Ok) :
    envCommands (textOf l) = l.flatMap fun a => ['$', 'e', 'n', 'v', ':'] ++ a.key ++ ['=', '"'] ++ quotes (interpolate a.value) ++ ['"', '\n'] := by
  unfold envCommands
  rw [words_assigns hl, List.flatMap_map]
  simp only [List.flatMap_def]
  congr 1
  refine List.map_congr_left ?_
  intro a ha
  obtain ⟨h1, h2, h3, _⟩ := hl a ha
  rw [command_assign _ h2, envCommand, if_neg (by rintro (h | h); exact h1.1 h; exact h3.1 h)]

/-- A text inside the double quotes of a PowerShell command: a quote is written with a backquote before it, all else as it
is. -/
inductive Escaped : Str → Str → Prop
  | nil : Escaped [] []
  | quote {s t : Str} : Escaped s t → Escaped ('"' :: s) ('`' :: '"' :: t)
  | char {c : Char} {s t : Str} : c ≠ '"' → Escaped s t → Escaped (c :: s) (c :: t)

/-- C49 (PowerShell): quotes in a value do not end the command's text. -/
theorem C49_quotes (s : Str) : Escaped s (quotes s) := by
  induction s with
  | nil => exact .nil
  | cons c s ih =>
    unfold quotes at ih ⊢
    rw [List.flatMap_cons]
    split
    · rename_i h; subst h; exact .quote ih
    · rename_i h; exact .char h ih

/-- values with a lone `$`, a price and a reference: `$-5$$A:$` -/
example : PiecesOk [.dollar, .plain ['-', '5'], .dollar, .ref ['A'] false, .plain [':'], .dollar] := by
  refine ⟨⟨by decide, ⟨by simp, by simp [EndsName], ⟨by decide, trivial, .inl rfl⟩, ?_⟩, ?_⟩, ?_⟩
  · intro _ c hc; cases hc; simp [EndsName]
  · exact .inr (.inl ⟨'$', _, rfl, by decide, by simp [EndsName]⟩)
  · exact .inr (.inl ⟨'-', _, rfl, by decide, by simp [EndsName]⟩)

/-- a case that meets the hypotheses: `#!/usr/bin/env -S A=$B/${C} node --x` -/
example : header "#!/usr/bin/env -S A=$B/${C} node --x".toList = some ⟨some "A=$B/${C} ".toList, "node".toList, " --x".toList⟩ ∧
    setCommands "A=$B/${C} ".toList = "@SET A=%B/%%C%\r\n".toList := by decide

end Shim
end Oro
