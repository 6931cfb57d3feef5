import Verif.Model.PackageSpec
/- Lemmas about the nom combinators and the specifier parsers. -/

set_option linter.unusedSectionVars false

namespace Oro
namespace PSpec

variable {V R U : Type}

/-! ### combinators -/

@[simp] theorem ok_bind {α β : Type} (r : Str) (a : α) (f : Str → α → Res β) : (Res.ok r a).bind f = f r a := rfl
@[simp] theorem err_bind {α β : Type} (f : Str → α → Res β) : (Res.err : Res α).bind f = .err := rfl

/-- neither a failure nor a panic -/
def Res.Soft {α : Type} (x : Res α) : Prop := x ≠ .fail ∧ x ≠ .panic

theorem bind_soft {α β : Type} {x : Res α} {f : Str → α → Res β} (hx : x.Soft) (hf : ∀ r a, (f r a).Soft) :
    (x.bind f).Soft := by
  cases x with
  | ok r a => exact hf r a
  | err => exact ⟨by simp, by simp⟩
  | fail => exact absurd rfl hx.1
  | panic => exact absurd rfl hx.2

theorem opt_soft {α : Type} {p : P α} {s : Str} (h : (p s).Soft) : (opt p s).Soft := by
  unfold opt
  cases hp : p s with
  | ok r a => exact ⟨by simp, by simp⟩
  | err => exact ⟨by simp, by simp⟩
  | fail => exact absurd hp h.1
  | panic => exact absurd hp h.2

theorem alt_soft {α : Type} {p q : P α} {s : Str} (h : (p s).Soft) (h' : (q s).Soft) : (alt p q s).Soft := by
  unfold alt
  cases hp : p s with
  | ok r a => exact ⟨by simp, by simp⟩
  | err => exact h'
  | fail => exact absurd hp h.1
  | panic => exact absurd hp h.2

theorem ok_soft {α : Type} (r : Str) (a : α) : (Res.ok r a).Soft := ⟨by simp, by simp⟩
theorem err_soft {α : Type} : (Res.err : Res α).Soft := ⟨by simp, by simp⟩

theorem Res.Soft.eq_err {α : Type} {x : Res α} (h : x.Soft) (h' : ∀ r a, x ≠ .ok r a) : x = .err := by
  cases x with
  | ok r a => exact absurd rfl (h' r a)
  | err => rfl
  | fail => exact absurd rfl h.1
  | panic => exact absurd rfl h.2

theorem takeTill1_soft (p : Char → Bool) (s : Str) : (takeTill1 p s).Soft := by
  unfold takeTill1; split
  · exact err_soft
  · exact ok_soft _ _

theorem safeTill1_soft (p : Char → Bool) (s : Str) : (safeTill1 p s).Soft := by
  unfold safeTill1
  refine bind_soft (takeTill1_soft p s) fun r a => ?_
  split
  · exact ok_soft _ _
  · exact err_soft

theorem tagNC_soft (t s : Str) : (tagNC t s).Soft := by
  induction t generalizing s with
  | nil => exact ok_soft _ _
  | cons c t ih =>
    cases s with
    | nil => exact err_soft
    | cons d s =>
      unfold tagNC; split
      · exact ih s
      · exact err_soft

theorem bind_ok {α β : Type} {x : Res α} {f : Str → α → Res β} {r : Str} {b : β} :
    x.bind f = .ok r b ↔ ∃ r1 a, x = .ok r1 a ∧ f r1 a = .ok r b := by
  cases x with
  | ok r1 a => exact ⟨fun h => ⟨r1, a, rfl, h⟩, by rintro ⟨_, _, ⟨⟩, h⟩; exact h⟩
  | _ => simp [Res.bind]

theorem map_ok {α β : Type} {x : Res α} {f : α → β} {r : Str} {b : β} :
    x.map f = .ok r b ↔ ∃ a, x = .ok r a ∧ f a = b := by
  unfold Res.map
  rw [bind_ok]
  constructor
  · rintro ⟨r1, a, h, ⟨⟩⟩; exact ⟨a, h, rfl⟩
  · rintro ⟨a, h, rfl⟩; exact ⟨r, a, h, rfl⟩

theorem alt_ok {α : Type} {p q : P α} {s r : Str} {a : α} :
    alt p q s = .ok r a ↔ p s = .ok r a ∨ (p s = .err ∧ q s = .ok r a) := by
  unfold alt; cases h : p s <;> simp

theorem opt_ok {α : Type} {p : P α} {s r : Str} {o : Option α} :
    opt p s = .ok r o ↔ (∃ a, o = some a ∧ p s = .ok r a) ∨ (o = none ∧ r = s ∧ p s = .err) := by
  unfold opt
  cases h : p s with
  | ok r1 a =>
    constructor
    · intro h; cases h; exact Or.inl ⟨a, rfl, rfl⟩
    · rintro (⟨b, rfl, ⟨⟩⟩ | ⟨_, _, ⟨⟩⟩); rfl
  | err =>
    constructor
    · intro h; cases h; exact Or.inr ⟨rfl, rfl, rfl⟩
    · rintro (⟨b, rfl, ⟨⟩⟩ | ⟨rfl, rfl, _⟩); rfl
  | fail => simp
  | panic => simp

theorem alt_of_err {α : Type} {p q : P α} {s : Str} (h : p s = .err) : alt p q s = q s := by
  simp [alt, h]

theorem alt_of_ok {α : Type} {p q : P α} {s r : Str} {a : α} (h : p s = .ok r a) : alt p q s = .ok r a := by
  simp [alt, h]

theorem opt_of_err {α : Type} {p : P α} {s : Str} (h : p s = .err) : opt p s = .ok s none := by
  simp [opt, h]

theorem opt_of_ok {α : Type} {p : P α} {s r : Str} {a : α} (h : p s = .ok r a) : opt p s = .ok r (some a) := by
  simp [opt, h]

theorem takeTill1_ok {p : Char → Bool} {s r a : Str} :
    takeTill1 p s = .ok r a ↔ a ≠ [] ∧ s = a ++ r ∧ (∀ c ∈ a, p c = false) ∧ (∀ c, r.head? = some c → p c = true) := by
  have key : s = s.takeWhile (fun c => !p c) ++ s.dropWhile (fun c => !p c) := (List.takeWhile_append_dropWhile).symm
  constructor
  · intro h
    have hne : ∀ c ∈ s.takeWhile (fun c => !p c), p c = false := by
      intro c hc
      have := (List.all_eq_true.mp (List.all_takeWhile (p := fun c => !p c) (l := s))) c hc
      simpa using this
    have hd : ∀ c, (s.dropWhile (fun c => !p c)).head? = some c → p c = true := by
      intro c hc
      have := List.head?_dropWhile_not (fun c => !p c) s
      rw [hc] at this
      simpa using this
    unfold takeTill1 at h
    split at h
    · cases h
    · next a' l hl =>
      cases h
      rw [hl] at key hne
      exact ⟨by simp, key, hne, hd⟩
  · rintro ⟨hne, rfl, hp, hr⟩
    have hp' : ∀ c ∈ a, (!p c) = true := by simpa using hp
    have h1 : (a ++ r).takeWhile (fun c => !p c) = a := by
      rw [List.takeWhile_append_of_pos hp']
      cases r with
      | nil => simp
      | cons c r => simp [hr c rfl]
    have h2 : (a ++ r).dropWhile (fun c => !p c) = r := by
      rw [List.dropWhile_append_of_pos hp']
      cases r with
      | nil => simp
      | cons c r => simp [hr c rfl]
    unfold takeTill1
    rw [h1, h2]
    cases a with
    | nil => exact absurd rfl hne
    | cons => rfl

theorem safeTill1_ok {p : Char → Bool} {s r a : Str} :
    safeTill1 p s = .ok r a ↔ safe a = true ∧ takeTill1 p s = .ok r a := by
  unfold safeTill1
  rw [bind_ok]
  constructor
  · rintro ⟨r1, a1, h, h2⟩
    split at h2
    · next hs => cases h2; exact ⟨hs, h⟩
    · cases h2
  · rintro ⟨hs, h⟩
    exact ⟨r, a, h, by simp [hs]⟩

/-- an unsafe character before the next stop character makes `safeTill1` fail -/
theorem safeTill1_unsafe {p : Char → Bool} {a t : Str} {x : Char} (ha : ∀ c ∈ a, p c = false) (hx : p x = false)
    (hs : safeChar x = false) : safeTill1 p (a ++ x :: t) = .err := by
  cases h : safeTill1 p (a ++ x :: t) with
  | err => rfl
  | ok r b =>
    exfalso
    obtain ⟨hsafe, hb⟩ := safeTill1_ok.mp h
    obtain ⟨_, heq, hpb, hr⟩ := takeTill1_ok.mp hb
    have hxb : x ∈ b := by
      by_cases hlen : a.length < b.length
      · have : (a ++ x :: t)[a.length]? = some x := by simp
        rw [heq, List.getElem?_append_left hlen] at this
        exact List.mem_of_getElem? this
      · -- `b` is a prefix of `a`, so `r` starts inside `a ++ [x]`
        exfalso
        have hle : b.length ≤ a.length := by omega
        have hcr : ∃ c, r.head? = some c ∧ p c = false := by
          have h1 : (a ++ x :: t)[b.length]? = r.head? := by
            rw [heq, List.getElem?_append_right (Nat.le_refl _)]; simp [List.head?_eq_getElem?]
          rcases Nat.lt_or_eq_of_le hle with hlt | he
          · rw [List.getElem?_append_left hlt, List.getElem?_eq_getElem hlt] at h1
            exact ⟨a[b.length], h1.symm, ha _ (List.getElem_mem _)⟩
          · rw [he, List.getElem?_append_right (Nat.le_refl _)] at h1
            simp at h1
            exact ⟨x, h1.symm, hx⟩
        obtain ⟨c, hc, hpc⟩ := hcr
        have := hr c hc
        rw [hpc] at this; cases this
    have := List.all_eq_true.mp hsafe x hxb
    rw [hs] at this; cases this
  | fail => unfold safeTill1 takeTill1 at h; split at h <;> simp [Res.bind] at h; split at h <;> cases h
  | panic => unfold safeTill1 takeTill1 at h; split at h <;> simp [Res.bind] at h; split at h <;> cases h

theorem wholeRes_eq {α : Type} (f : Str → Option α) (s : Str) :
    wholeRes f s = if s = [] then .err else match f s with | some x => .ok [] x | none => .err := by
  by_cases h : s = []
  · subst h; rfl
  · rw [if_neg h]
    have : takeTill1 (fun _ => false) s = .ok [] s := takeTill1_ok.mpr ⟨h, by simp, by simp, by simp⟩
    simp only [wholeRes, this, Res.bind]
    cases f s <;> rfl

theorem wholeRes_ok {α : Type} {f : Str → Option α} {s r : Str} {x : α} :
    wholeRes f s = .ok r x ↔ r = [] ∧ s ≠ [] ∧ f s = some x := by
  rw [wholeRes_eq]
  by_cases h : s = []
  · simp [h]
  · rw [if_neg h]
    cases hf : f s with
    | none => simp
    | some y => simp [h, eq_comm]

theorem wholeRes_err {α : Type} {f : Str → Option α} {s : Str} :
    wholeRes f s = .err ↔ s = [] ∨ f s = none := by
  rw [wholeRes_eq]
  by_cases h : s = []
  · simp [h]
  · rw [if_neg h]
    cases hf : f s with
    | none => simp
    | some y => simp [h]

theorem cut_ok {α : Type} {p : P α} {s r : Str} {a : α} : cut p s = .ok r a ↔ p s = .ok r a := by
  unfold cut; cases h : p s <;> simp

theorem safeWhole_eq (s : Str) :
    safeTill1 (fun _ => false) s = if s = [] then .err else if safe s then .ok [] s else .err := by
  by_cases h : s = []
  · subst h; rfl
  · rw [if_neg h]
    have : takeTill1 (fun _ => false) s = .ok [] s := takeTill1_ok.mpr ⟨h, by simp, by simp, by simp⟩
    simp [safeTill1, this, Res.bind]

/-! ### tags -/

theorem toLower_eq_self_of {c d : Char} (hc : c.isLower = false) (h : d.toLower = c) : d = c := by
  unfold Char.toLower at h
  split at h
  · next hd =>
    exfalso
    subst h
    simp only [Char.isLower, Bool.and_eq_false_iff, decide_eq_false_iff_not] at hc
    have h1 := hd.1
    have h2 := hd.2
    have h1' : 65 ≤ d.val.toNat := by simpa [UInt32.le_iff_toNat_le] using h1
    have h2' : d.val.toNat ≤ 90 := by simpa [UInt32.le_iff_toNat_le] using h2
    rcases hc with hc | hc
    · apply hc
      show (97 : UInt32) ≤ d.val + _
      rw [UInt32.le_iff_toNat_le, UInt32.toNat_add]
      have h3 : d.val.toNat = d.toNat := rfl
      simp; omega
    · apply hc
      show d.val + _ ≤ (122 : UInt32)
      rw [UInt32.le_iff_toNat_le, UInt32.toNat_add]
      have h3 : d.val.toNat = d.toNat := rfl
      simp; omega
  · exact h

theorem tag1_eq {c : Char} (h1 : c.isLower = false) (h2 : c.toLower = c) (s : Str) :
    tagNC [c] s = match s with | d :: s => if d = c then .ok s () else .err | [] => .err := by
  cases s with
  | nil => rfl
  | cons d s =>
    show (if c.toLower = d.toLower then tagNC [] s else .err) = _
    by_cases h : d = c
    · subst h; simp [tagNC]
    · rw [if_neg]
      · simp [h]
      intro h'
      rw [h2] at h'
      exact h (toLower_eq_self_of h1 h'.symm)

theorem tag_at (s : Str) : tagNC ['@'] s = match s with | d :: s => if d = '@' then .ok s () else .err | [] => .err :=
  tag1_eq (by decide) (by decide) s
theorem tag_slash (s : Str) : tagNC ['/'] s = match s with | d :: s => if d = '/' then .ok s () else .err | [] => .err :=
  tag1_eq (by decide) (by decide) s
theorem tag_colon (s : Str) : tagNC [':'] s = match s with | d :: s => if d = ':' then .ok s () else .err | [] => .err :=
  tag1_eq (by decide) (by decide) s
theorem tag_hash (s : Str) : tagNC ['#'] s = match s with | d :: s => if d = '#' then .ok s () else .err | [] => .err :=
  tag1_eq (by decide) (by decide) s
theorem tag_dot (s : Str) : tagNC ['.'] s = match s with | d :: s => if d = '.' then .ok s () else .err | [] => .err :=
  tag1_eq (by decide) (by decide) s

theorem tagNC_append (t s : Str) : tagNC t (t ++ s) = .ok s () := by
  induction t with
  | nil => rfl
  | cons c t ih => simp [tagNC, ih]

/-- a tag is either matched, consuming exactly its length, or an ordinary error -/
theorem tagNC_cases (t s : Str) : tagNC t s = .err ∨ ∃ a r, tagNC t s = .ok r () ∧ s = a ++ r ∧ a.length = t.length ∧
    a.map Char.toLower = t.map Char.toLower := by
  induction t generalizing s with
  | nil => exact Or.inr ⟨[], s, rfl, rfl, rfl, rfl⟩
  | cons c t ih =>
    cases s with
    | nil => exact Or.inl rfl
    | cons d s =>
      simp only [tagNC]
      split
      · next h =>
        rcases ih s with h1 | ⟨a, r, h1, rfl, hl, hm⟩
        · exact Or.inl h1
        · exact Or.inr ⟨d :: a, r, h1, rfl, by simp [hl], by simp [hm, h]⟩
      · exact Or.inl rfl

/-- a tag containing a character that is no letter needs that character in the input -/
theorem tagNC_err_of_notMem {t s : Str} {c : Char} (hc : c ∈ t) (h1 : c.isLower = false) (h2 : c.toLower = c)
    (hs : c ∉ s) : tagNC t s = .err := by
  rcases tagNC_cases t s with h | ⟨a, r, h, rfl, hl, hm⟩
  · exact h
  · exfalso
    have : c ∈ a.map Char.toLower := by
      rw [hm, ← h2]; exact List.mem_map_of_mem hc
    obtain ⟨d, hd, hdc⟩ := List.mem_map.mp this
    have := toLower_eq_self_of h1 hdc
    subst this
    exact hs (List.mem_append_left _ hd)

end PSpec
end Oro
