import Verif.Spec.Nassun
/- Version selection: the model meets the specification. -/

set_option linter.unusedSectionVars false

namespace Oro
namespace Nassun
open PSpec
variable {V R U I : Type} [DecidableEq V]

theorem maxBy_spec {le : V → V → Bool} (h : TotalLe le) (l : List V) :
    (maxBy le l = none ↔ l = []) ∧ ∀ m, maxBy le l = some m → m ∈ l ∧ ∀ x ∈ l, le x m = true := by
  have key : ∀ (l : List V) (x : V), let m := l.foldl (fun m y => if le m y then y else m) x
      m ∈ x :: l ∧ ∀ y ∈ x :: l, le y m = true := by
    intro l
    induction l with
    | nil =>
      intro x
      refine ⟨by simp, ?_⟩
      intro y hy
      simp at hy; subst hy
      rcases h.total y y with h | h <;> exact h
    | cons z l ih =>
      intro x
      simp only [List.foldl_cons]
      obtain ⟨h1, h2⟩ := ih (if le x z then z else x)
      refine ⟨?_, ?_⟩
      · rcases List.mem_cons.mp h1 with h1 | h1
        · rw [h1]; split <;> simp
        · simp [h1]
      · have hx : le (if le x z then z else x) (List.foldl (fun m y => if le m y then y else m) (if le x z then z else x) l) = true :=
          h2 _ (by simp)
        intro y hy
        rcases List.mem_cons.mp hy with rfl | hy
        · refine h.trans _ _ _ ?_ hx
          split
          · assumption
          · rcases h.total y y with h | h <;> exact h
        rcases List.mem_cons.mp hy with rfl | hy
        · refine h.trans _ _ _ ?_ hx
          split
          · rcases h.total y y with h | h <;> exact h
          · next hn => rcases h.total x y with h | h
                       · exact absurd h hn
                       · exact h
        · exact h2 y (by simp [hy])
  cases l with
  | nil => simp [maxBy]
  | cons x l =>
    refine ⟨by simp [maxBy], ?_⟩
    intro m hm
    simp only [maxBy, Option.some.injEq] at hm
    subst hm
    exact key l x

theorem published_iff {p : Packument V} {v : V} : Published p v ↔ v ∈ p.versions.keys := by
  unfold Published
  by_cases h : v ∈ p.versions.keys
  · simp only [h, iff_true]
    cases hv : p.versions.get? v with
    | some e => exact ⟨e, rfl⟩
    | none => exact absurd h ((IMap.get?_eq_none_iff _ _).mp hv)
  · simp only [h, iff_false]
    rintro ⟨e, he⟩
    rw [(IMap.get?_eq_none_iff _ _).mpr h] at he
    cases he

theorem contains_iff {p : Packument V} {v : V} : p.versions.contains v = true ↔ Published p v := by
  unfold IMap.contains Published
  cases p.versions.get? v <;> simp

theorem maxSat_spec {w : World V R I} (h : TotalLe w.le) (p : Packument V) (r : R) :
    (maxSatisfying w p.versions.keys r = none ↔ ∀ u, Published p u → w.sat r u = false) ∧
    ∀ m, maxSatisfying w p.versions.keys r = some m →
      Published p m ∧ w.sat r m = true ∧ ∀ u, Published p u → w.sat r u = true → w.le u m = true := by
  obtain ⟨h1, h2⟩ := maxBy_spec h (p.versions.keys.filter (w.sat r))
  constructor
  · unfold maxSatisfying
    rw [h1, List.filter_eq_nil_iff]
    constructor
    · intro h u hu; simpa using h u (published_iff.mp hu)
    · intro h u hu; simpa using h u (published_iff.mpr hu)
  · intro m hm
    obtain ⟨h3, h4⟩ := h2 m hm
    obtain ⟨h5, h6⟩ := List.mem_filter.mp h3
    refine ⟨published_iff.mpr h5, h6, fun u hu hs => h4 u (List.mem_filter.mpr ⟨published_iff.mp hu, hs⟩)⟩

/-- the chosen and published version is the one the specification names -/
theorem choose_iff {w : World V R I} (h : TotalLe w.le) (p : Packument V) (tag : Str) (req : Option (VersionSpec V R))
    (v : V) : (chooseTarget w p tag req = some v ∧ Published p v) ↔ Chooses w p tag req v := by
  cases req with
  | none =>
    simp only [chooseTarget, directTarget, takesDefault, Bool.and_true]
    constructor
    · rintro ⟨h1, h2⟩
      cases ht : p.tags.get? tag with
      | none => rw [ht] at h1; cases h1
      | some d =>
        rw [ht] at h1
        by_cases hc : p.versions.contains d = true
        · simp [hc] at h1; subst h1
          exact .bare ht h2
        · simp [hc] at h1
    · intro hc
      cases hc with
      | bare ht hp => simp [ht, contains_iff.mpr hp, hp]
  | some q =>
    cases q with
    | version x =>
      simp only [chooseTarget, directTarget]
      constructor
      · rintro ⟨h1, h2⟩; simp at h1; subst h1; exact .exact h2
      · intro hc
        cases hc with
        | exact hp => exact ⟨rfl, hp⟩
    | tag t =>
      simp only [chooseTarget, directTarget]
      constructor
      · rintro ⟨h1, h2⟩
        cases ht : p.tags.get? t with
        | none =>
          rw [ht] at h1
          cases hd : p.tags.get? tag <;> simp [hd, takesDefault] at h1
        | some d =>
          rw [ht] at h1
          simp at h1; subst h1
          exact .tagged ht h2
      · intro hc
        cases hc with
        | tagged ht hp => rw [ht]; exact ⟨rfl, hp⟩
    | range r =>
      obtain ⟨m1, m2⟩ := maxSat_spec h p r
      simp only [chooseTarget, directTarget]
      have hsome : ∀ m, maxSatisfying w p.versions.keys r = some m →
          (∀ d, p.tags.get? tag = some d → Published p d → w.sat r d = false) → ∀ v,
          ((m = v ∧ Published p v) ↔ Chooses w p tag (some (.range r)) v) := by
        intro m hm hno v
        obtain ⟨a, b, c⟩ := m2 m hm
        constructor
        · rintro ⟨rfl, _⟩; exact .highest a b hno c
        · intro hc
          cases hc with
          | preferred ht hp hs => rw [hno v ht hp] at hs; cases hs
          | highest hp hs _ hmax => exact ⟨h.antisymm _ _ (hmax m a b) (c v hp hs), hp⟩
          | star _ hn _ _ => rw [hn m a] at b; cases b
      have hnone : maxSatisfying w p.versions.keys r = none → ∀ o : Option V, p.tags.get? tag = o → ∀ v,
          (((if w.isStar r = true then o else none) = some v ∧ Published p v) ↔ Chooses w p tag (some (.range r)) v) := by
        intro hm o ho v
        have hn := m1.mp hm
        constructor
        · rintro ⟨h1, h2⟩
          split at h1
          · next hs => exact .star hs hn (by rw [ho, h1]) h2
          · cases h1
        · intro hc
          cases hc with
          | preferred ht hp hs => rw [hn v hp] at hs; cases hs
          | highest hp hs _ _ => rw [hn v hp] at hs; cases hs
          | star hs _ ht hp => rw [if_pos hs, ← ho, ht]; exact ⟨rfl, hp⟩
      cases ht : p.tags.get? tag with
      | none =>
        simp only
        cases hm : maxSatisfying w p.versions.keys r with
        | none => exact hnone hm none ht v
        | some m =>
          simpa using hsome m hm (by intro d hd; rw [ht] at hd; cases hd) v
      | some d =>
        by_cases hb : (p.versions.contains d && takesDefault w d (some (.range r))) = true
        · simp only [hb, if_true]
          simp only [Bool.and_eq_true] at hb
          obtain ⟨hb1, hb2⟩ := hb
          have hp := contains_iff.mp hb1
          constructor
          · rintro ⟨h1, _⟩; simp at h1; subst h1; exact .preferred ht hp hb2
          · intro hc
            cases hc with
            | preferred ht' hp' _ => rw [ht] at ht'; cases ht'; exact ⟨rfl, hp'⟩
            | highest _ _ hno _ =>
              have := hno d ht hp
              rw [show w.sat r d = true from hb2] at this; cases this
            | star _ hn _ _ =>
              have := hn d hp
              rw [show w.sat r d = true from hb2] at this; cases this
        · simp only [hb]
          have hno : ∀ d', p.tags.get? tag = some d' → Published p d' → w.sat r d' = false := by
            intro d' hd hp
            rw [ht] at hd; cases hd
            simp only [contains_iff.mpr hp, Bool.true_and, takesDefault] at hb
            simpa using hb
          simp only [Bool.false_eq_true, if_false]
          cases hm : maxSatisfying w p.versions.keys r with
          | none => exact hnone hm (some d) ht v
          | some m => simpa using hsome m hm hno v

theorem chooses_unique {w : World V R I} (h : TotalLe w.le) {p : Packument V} {tag : Str}
    {req : Option (VersionSpec V R)} {a b : V} (ha : Chooses w p tag req a) (hb : Chooses w p tag req b) : a = b := by
  have h1 := ((choose_iff h p tag req a).mpr ha).1
  have h2 := ((choose_iff h p tag req b).mpr hb).1
  rw [h1] at h2; cases h2; rfl

end Nassun
end Oro
