import Verif.Model.Bins
import Verif.Proofs.PackageSpec
/-
Normalised bin entries.
-/

set_option linter.unusedSectionVars false

namespace Oro
namespace Bins

theorem splitChar_no_sep (c : Char) (s : Str) : ∀ x ∈ PSpec.splitChar c s, c ∉ x := by
  induction s with
  | nil => simp [PSpec.splitChar]
  | cons a s ih =>
    simp only [PSpec.splitChar]
    split
    · intro x hx
      rcases List.mem_cons.1 hx with rfl | hx
      · simp
      · exact ih x hx
    · rename_i hne
      split
      · rename_i h t he
        intro x hx
        rw [he] at ih
        rcases List.mem_cons.1 hx with rfl | hx
        · have := ih h (List.mem_cons_self ..)
          simp only [List.mem_cons, not_or]
          exact ⟨Ne.symm hne, this⟩
        · exact ih x (List.mem_cons_of_mem _ hx)
      · intro x hx
        simp only [List.mem_cons, List.not_mem_nil, or_false] at hx
        subst hx
        simpa using Ne.symm hne

theorem splitChar_mem (c : Char) (s : Str) : ∀ x ∈ PSpec.splitChar c s, ∀ a ∈ x, a ∈ s := by
  induction s with
  | nil => simp [PSpec.splitChar]
  | cons a s ih =>
    simp only [PSpec.splitChar]
    split
    · intro x hx
      rcases List.mem_cons.1 hx with rfl | hx
      · simp
      · exact fun b hb => List.mem_cons_of_mem _ (ih x hx b hb)
    · split
      · rename_i h t he
        rw [he] at ih
        intro x hx
        rcases List.mem_cons.1 hx with rfl | hx
        · intro b hb
          rcases List.mem_cons.1 hb with rfl | hb
          · simp
          · exact List.mem_cons_of_mem _ (ih h (List.mem_cons_self ..) b hb)
        · exact fun b hb => List.mem_cons_of_mem _ (ih x (List.mem_cons_of_mem _ hx) b hb)
      · intro x hx
        simp only [List.mem_cons, List.not_mem_nil, or_false] at hx
        subst hx
        simp

/-- a name that denotes one file in a folder -/
def OneName (s : Str) : Prop := s ≠ [] ∧ s ≠ ['.'] ∧ s ≠ ['.', '.'] ∧ '/' ∉ s

theorem piece_normal {x s} (h : RPath.piece x = some (.normal s)) : s = x ∧ s ≠ [] ∧ s ≠ ['.'] ∧ s ≠ ['.', '.'] := by
  unfold RPath.piece at h
  split at h
  · cases h
  · cases h
  · cases h
  · rename_i h1 h2 h3
    cases h
    exact ⟨rfl, h1, h2, h3⟩

theorem components_normal (p : Str) : ∀ s, Comp.normal s ∈ RPath.components p → OneName s ∧ ∀ a ∈ s, a ∈ p := by
  intro s hs
  unfold RPath.components at hs
  have key : ∀ (t : Str), (∀ a ∈ t, a ∈ p) → Comp.normal s ∈ (PSpec.splitChar '/' t).filterMap RPath.piece →
      OneName s ∧ ∀ a ∈ s, a ∈ p := by
    intro t ht h
    rw [List.mem_filterMap] at h
    obtain ⟨x, hx, hp⟩ := h
    obtain ⟨rfl, h1, h2, h3⟩ := piece_normal hp
    exact ⟨⟨h1, h2, h3, splitChar_no_sep _ _ _ hx⟩, fun a ha => ht a (splitChar_mem _ _ _ hx a ha)⟩
  split at hs
  · rename_i t
    rcases List.mem_cons.1 hs with h | h
    · cases h
    · exact key t (fun a ha => List.mem_cons_of_mem _ ha) h
  · split at hs
    · rename_i rest he
      rcases List.mem_cons.1 hs with h | h
      · cases h
      · refine key p (fun _ h => h) ?_
        rw [he]
        rw [List.mem_filterMap] at h ⊢
        obtain ⟨x, hx, hp⟩ := h
        exact ⟨x, List.mem_cons_of_mem _ hx, hp⟩
    · exact key p (fun _ h => h) hs

theorem fileName_some {p s} (h : RPath.fileName p = some s) : OneName s ∧ ∀ a ∈ s, a ∈ p := by
  unfold RPath.fileName at h
  split at h
  · rename_i s' he
    cases h
    exact components_normal p _ (List.mem_of_getLast? he)
  · cases h

theorem baseName_some {n b} (h : baseName n = some b) : OneName b ∧ '\\' ∉ b ∧ ':' ∉ b := by
  unfold baseName at h
  split at h
  · cases h
  · rename_i x _
    obtain ⟨h1, h2⟩ := fileName_some h
    refine ⟨h1, fun hm => ?_, fun hm => ?_⟩ <;>
    · have := h2 _ hm
      simp only [unify, List.mem_map] at this
      obtain ⟨c, _, hc⟩ := this
      split at hc
      · cases hc
      · rename_i hn; subst hc; simp at hn

theorem foldl_addBin_inv (P : Str → List Comp → Prop)
    (hP : ∀ n p b, baseName n = some b → target p ≠ [] → P b (target p)) (l : List (Str × Str))
    (m : IMap Str (List Comp)) (hm : ∀ kv ∈ m, P kv.1 kv.2) : ∀ kv ∈ l.foldl addBin m, P kv.1 kv.2 := by
  induction l generalizing m with
  | nil => exact hm
  | cons a r ih =>
    simp only [List.foldl_cons]
    apply ih
    unfold addBin
    split
    · exact hm
    · rename_i b hb
      split
      · exact hm
      · rename_i ht
        intro kv hkv
        rcases IMap.mem_insert hkv with rfl | hkv
        · exact hP _ _ _ hb ht
        · exact hm kv hkv

theorem addBin_mono (m : IMap Str (List Comp)) (kv : Str × Str) (k : Str) (h : (m.get? k).isSome) :
    ((addBin m kv).get? k).isSome := by
  unfold addBin
  split
  · exact h
  · split
    · exact h
    · rw [IMap.get?_insert]
      split
      · rfl
      · exact h

theorem foldl_addBin_mono (l : List (Str × Str)) (m : IMap Str (List Comp)) (k : Str) (h : (m.get? k).isSome) :
    ((l.foldl addBin m).get? k).isSome := by
  induction l generalizing m with
  | nil => exact h
  | cons a r ih => exact ih _ (addBin_mono m a k h)

theorem foldl_addBin_mem (l : List (Str × Str)) (m : IMap Str (List Comp)) (n p b : Str) (h : (n, p) ∈ l)
    (hb : baseName n = some b) (ht : target p ≠ []) : ((l.foldl addBin m).get? b).isSome := by
  induction l generalizing m with
  | nil => cases h
  | cons a r ih =>
    rcases List.mem_cons.1 h with rfl | h
    · simp only [List.foldl_cons]
      apply foldl_addBin_mono
      simp only [addBin, hb, ht, ↓reduceIte, IMap.get?_insert_self, Option.isSome_some]
    · exact ih _ h

end Bins
end Oro
