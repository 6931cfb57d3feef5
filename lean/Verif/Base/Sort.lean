import Mathlib.Data.List.Sort
import Verif.Base.IMap
/- Stable insertion sort (models `slice::sort_by`) and the lexicographic order on strings. -/

set_option linter.unusedSectionVars false

namespace Oro

/-- Stable insertion into a sorted list. -/
def insertBy {α : Type} (le : α → α → Bool) (a : α) : List α → List α
  | [] => [a]
  | b :: l => if le a b then a :: b :: l else b :: insertBy le a l

/-- Stable sort (`slice::sort_by`); insertion sort from the right keeps equal elements in order. -/
def sortBy {α : Type} (le : α → α → Bool) : List α → List α
  | [] => []
  | a :: l => insertBy le a (sortBy le l)

/-- `str` comparison: lexicographic by code point (equals byte-wise UTF-8 order). -/
def strLe : List Char → List Char → Bool
  | [], _ => true
  | _ :: _, [] => false
  | a :: l, b :: m => if a.toNat < b.toNat then true else if a.toNat = b.toNat then strLe l m else false

section
variable {α : Type} {le : α → α → Bool}

theorem insertBy_perm (le : α → α → Bool) (a : α) : ∀ l, (insertBy le a l).Perm (a :: l) := by
  intro l
  induction l with
  | nil => exact .refl _
  | cons b l ih =>
    unfold insertBy
    split
    · exact .refl _
    · exact (ih.cons b).trans (List.Perm.swap a b l)

theorem sortBy_perm (le : α → α → Bool) : ∀ l : List α, (sortBy le l).Perm l := by
  intro l
  induction l with
  | nil => exact .refl _
  | cons a l ih => exact (insertBy_perm le a _).trans (ih.cons a)

theorem mem_sortBy {l : List α} {a : α} : a ∈ sortBy le l ↔ a ∈ l := (sortBy_perm le l).mem_iff

theorem insertBy_sorted (htot : ∀ a b, le a b = true ∨ le b a = true)
    (htr : ∀ a b c, le a b = true → le b c = true → le a c = true) (a : α) :
    ∀ l : List α, l.Pairwise (fun x y => le x y = true) → (insertBy le a l).Pairwise (fun x y => le x y = true) := by
  intro l
  induction l with
  | nil => intro _; simp [insertBy]
  | cons b l ih =>
    intro h
    unfold insertBy
    split
    · rename_i hab
      refine List.pairwise_cons.mpr ⟨?_, h⟩
      intro x hx
      rcases List.mem_cons.mp hx with rfl | hx
      · exact hab
      · exact htr _ _ _ hab ((List.pairwise_cons.mp h).1 x hx)
    · rename_i hab
      refine List.pairwise_cons.mpr ⟨?_, ih (List.pairwise_cons.mp h).2⟩
      intro x hx
      rcases List.mem_cons.mp ((insertBy_perm le a l).mem_iff.mp hx) with rfl | hx
      · exact (htot x b).resolve_left hab
      · exact (List.pairwise_cons.mp h).1 x hx

theorem sortBy_sorted (htot : ∀ a b, le a b = true ∨ le b a = true)
    (htr : ∀ a b c, le a b = true → le b c = true → le a c = true) :
    ∀ l : List α, (sortBy le l).Pairwise (fun x y => le x y = true) := by
  intro l
  induction l with
  | nil => exact List.Pairwise.nil
  | cons a l ih => exact insertBy_sorted htot htr a _ ih

theorem strLe_total : ∀ a b, strLe a b = true ∨ strLe b a = true := by
  intro a
  induction a with
  | nil => intro b; left; cases b <;> rfl
  | cons x a ih =>
    intro b
    cases b with
    | nil => right; rfl
    | cons y b =>
      simp only [strLe]
      rcases Nat.lt_trichotomy x.toNat y.toNat with h | h | h
      · simp [h]
      · simp only [h, Nat.lt_irrefl, if_false, if_true]; exact ih b
      · right; simp [h]

theorem strLe_trans : ∀ a b c, strLe a b = true → strLe b c = true → strLe a c = true := by
  intro a
  induction a with
  | nil => intro b c _ _; cases c <;> rfl
  | cons x a ih =>
    intro b c h1 h2
    cases b with
    | nil => cases h1
    | cons y b =>
      cases c with
      | nil => cases h2
      | cons z c =>
        simp only [strLe] at h1 h2 ⊢
        by_cases h3 : x.toNat < y.toNat
        · by_cases h4 : y.toNat < z.toNat
          · rw [if_pos (h3.trans h4)]
          · rw [if_neg h4] at h2
            split at h2
            · rename_i h5; rw [if_pos (h5 ▸ h3)]
            · cases h2
        · rw [if_neg h3] at h1
          split at h1
          · rename_i h5
            rw [h5]
            by_cases h4 : y.toNat < z.toNat
            · rw [if_pos h4]
            · rw [if_neg h4] at h2 ⊢
              split at h2
              · rename_i h6; rw [if_pos h6]; exact ih _ _ h1 h2
              · cases h2
          · cases h1

theorem strLe_antisymm : ∀ a b, strLe a b = true → strLe b a = true → a = b := by
  intro a
  induction a with
  | nil => intro b _ h; cases b with
    | nil => rfl
    | cons _ _ => cases h
  | cons x a ih =>
    intro b h1 h2
    cases b with
    | nil => cases h1
    | cons y b =>
      simp only [strLe] at h1 h2
      by_cases h3 : x.toNat < y.toNat
      · rw [if_neg (by omega), if_neg (by omega)] at h2; cases h2
      · rw [if_neg h3] at h1
        split at h1
        · rename_i h5
          rw [if_neg (by omega), if_pos h5.symm] at h2
          rw [ih b h1 h2, Char.toNat_inj.mp h5]
        · cases h1

/-- Sorting by a string key gives the same result for any arrangement of the same entries with distinct keys. -/
theorem sortBy_key_eq {β : Type} (key : β → List Char) {l m : List β} (hp : l.Perm m) (hn : (l.map key).Nodup) :
    sortBy (fun a b => strLe (key a) (key b)) l = sortBy (fun a b => strLe (key a) (key b)) m := by
  have hinj : ∀ a ∈ l, ∀ b ∈ l, key a = key b → a = b := by
    intro a ha b hb h
    exact List.inj_on_of_nodup_map hn ha hb h
  refine List.Perm.eq_of_pairwise (le := fun a b => strLe (key a) (key b) = true) ?_ ?_ ?_
    ((sortBy_perm _ l).trans (hp.trans (sortBy_perm _ m).symm))
  · intro a b ha hb h1 h2
    exact hinj a (mem_sortBy.mp ha) b (hp.mem_iff.mpr (mem_sortBy.mp hb)) (strLe_antisymm _ _ h1 h2)
  · exact sortBy_sorted (le := fun a b => strLe (key a) (key b)) (fun a b => strLe_total _ _)
      (fun a b c => strLe_trans _ _ _) l
  · exact sortBy_sorted (le := fun a b => strLe (key a) (key b)) (fun a b => strLe_total _ _)
      (fun a b c => strLe_trans _ _ _) m

end
end Oro
