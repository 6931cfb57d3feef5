import Verif.Spec.AtPath
import Verif.Proofs.GStep
import Verif.Proofs.PackageSpec4
set_option linter.unusedSectionVars false
namespace Oro
variable {P S : Type}

theorem splitChar_one {a : Str} (ha : '/' ∉ a) : PSpec.splitChar '/' a = [a] := by
  induction a with
  | nil => rfl
  | cons x l ih =>
    simp only [List.mem_cons, not_or] at ha
    rw [PSpec.splitChar, if_neg (Ne.symm ha.1), ih ha.2]

theorem nmWord_head : nmWord.head? ≠ some '@' := by decide
theorem nmWord_noslash : '/' ∉ nmWord := by decide

theorem nameSegs_plain {n : Str} (h : '/' ∉ n) : nameSegs n = [n] := splitChar_one h

theorem nameSegs_scoped {s t : Str} (hs : '/' ∉ s) (ht : '/' ∉ t) : nameSegs ('@' :: s ++ '/' :: t) = ['@' :: s, t] := by
  unfold nameSegs
  exact PSpec.splitChar_two (a := '@' :: s) (by simp [hs]) ht

/-- a name leads into the package of that name -/
theorem atStep_name (g : Graph Str P S) {p i : Nat} {n : Str} (hn : FolderName n) (hc : g.child? p n = some i) (b : Bool)
    (rest : List Str) : atStep g p b none ((nmWord :: nameSegs n) ++ rest) = atStep g i false none rest := by
  rw [List.cons_append, atStep, if_pos (.inl ⟨rfl, rfl⟩)]
  rcases hn with ⟨h1, h2, h3, h4, h5⟩ | ⟨s, t, rfl, hs, ht, ht2, ht3⟩
  · rw [nameSegs_plain h1, List.singleton_append, atStep, if_neg, if_neg (by simp), if_neg h5]
    · simp only [hc]
    · rintro (⟨h, _⟩ | h | h)
      · exact h3 h
      · exact h1 (by rw [h]; simp)
      · exact h4 h
  · rw [nameSegs_scoped hs ht]
    simp only [List.cons_append, List.nil_append]
    rw [atStep, if_neg, if_neg (by simp), if_pos (by simp), atStep, if_neg, if_neg (by simp), if_neg ht3]
    · have : '@' :: s ++ '/' :: t = '@' :: (s ++ '/' :: t) := rfl
      rw [this] at hc
      simp only [List.cons_append, hc]
    · rintro (⟨_, h⟩ | h | h)
      · cases h
      · exact ht (by rw [h]; simp)
      · exact ht2 h
    · rintro (⟨h, _⟩ | h | h)
      · simp [nmWord] at h
      · simp at h
      · simp at h

theorem child_of_parent {g : Graph Str P S} (hf : FolderTree g) {i p : Nat} {nd : Node Str P S} (hi : g.nodes[i]? = some nd)
    (hp : nd.parent = some p) : i ≠ 0 ∧ g.child? p nd.name = some i := by
  have h0 : i ≠ 0 := by
    rintro rfl
    obtain ⟨nd', h1, h2⟩ := hf.root
    rw [hi] at h1; cases h1
    rw [hp] at h2; cases h2
  obtain ⟨q, qn, h1, h2, h3⟩ := hf.listed i nd hi h0
  rw [hp] at h1; cases h1
  exact ⟨h0, by simp [Graph.child?, h2, h3]⟩

theorem locatedAt_nil {g : Graph Str P S} {i : Nat} (h : LocatedAt g i []) : i = 0 := by
  generalize hπ : ([] : List Str) = π at h
  cases h with
  | root => rfl
  | inside _ _ _ => simp at hπ

/-- following a location -/
theorem atStep_folder {g : Graph Str P S} (hf : FolderTree g)
    (hv : ∀ i nd, i ≠ 0 → g.nodes[i]? = some nd → FolderName nd.name) {i : Nat} {π : List Str} (hl : LocatedAt g i π)
    (b : Bool) (rest : List Str) :
    atStep g 0 b none (folder π ++ rest) = atStep g i (if π = [] then b else false) none rest := by
  induction hl generalizing rest with
  | root _ => simp [folder]
  | @inside i p π nd hi hp _ ih =>
    have hc := child_of_parent hf hi hp
    rw [show folder (π ++ [nd.name]) ++ rest = folder π ++ ((nmWord :: nameSegs nd.name) ++ rest) by
      simp [folder, List.append_assoc]]
    rw [ih, atStep_name g (hv i nd hc.1 hi) hc.2]
    simp

theorem atStep_rest {g : Graph Str P S} {i : Nat} {nd : Node Str P S} (hi : g.nodes[i]? = some nd) {rest : List Str}
    (hr : Regular rest) (hd : NoDeeper g i rest) (b : Bool) (hb : b = true → rest = [] ∨ rest.head? = some nmWord) :
    atStep g i b none rest = i := by
  obtain ⟨r1, r2, r3⟩ := hr
  have nochild : ∀ n rest', rest = (nmWord :: nameSegs n) ++ rest' → g.child? i n = none := by
    intro n rest' h
    rw [show g.child? i n = nd.children.get? n by simp [Graph.child?, hi]]
    cases hx : nd.children.get? n with
    | none => rfl
    | some c => exact absurd ⟨rest', h.symm⟩ (hd nd n c hi hx)
  cases rest with
  | nil => simp [atStep]
  | cons x r =>
    have hx := r1 x (by simp)
    by_cases hxn : x = nmWord
    · subst hxn
      rw [atStep, if_pos (.inl ⟨rfl, rfl⟩)]
      cases r with
      | nil => simp [atStep]
      | cons y r =>
        have hy := r1 y (by simp)
        have hyn := r2 y r rfl
        have hspecial : ¬ ((y = nmWord ∧ (none : Option Str) = none) ∨ y = ['/'] ∨ y = ['\\']) := by
          rintro (⟨h, _⟩ | h | h)
          · exact hyn h
          · exact hy.1 (by rw [h]; simp)
          · exact hy.2 h
        rw [atStep, if_neg hspecial, if_neg (by simp)]
        by_cases hat : y.head? = some '@'
        · rw [if_pos hat]
          cases r with
          | nil => simp [atStep]
          | cons z r =>
            have hz := r1 z (by simp)
            obtain ⟨hz1, hz2⟩ := r3 y z r rfl hat
            have hsp2 : ¬ ((z = nmWord ∧ (some y : Option Str) = none) ∨ z = ['/'] ∨ z = ['\\']) := by
              rintro (⟨_, h⟩ | h | h)
              · cases h
              · exact hz.1 (by rw [h]; simp)
              · exact hz.2 h
            rw [atStep, if_neg hsp2, if_neg (by simp), if_neg hz1]
            obtain ⟨s, rfl⟩ : ∃ s, y = '@' :: s := by
              cases y with
              | nil => simp at hat
              | cons a s => simp at hat; exact ⟨s, by rw [hat]⟩
            have hc := nochild ('@' :: s ++ '/' :: z) r (by
              rw [nameSegs_scoped (by simpa using hy.1) hz.1]; simp)
            rw [hc]
            simp only
            cases r with
            | nil => simp [atStep]
            | cons w r =>
              have hw := r1 w (by simp)
              rw [atStep, if_neg, if_pos rfl]
              rintro (⟨h, _⟩ | h | h)
              · exact hz2 (by rw [h]; rfl)
              · exact hw.1 (by rw [h]; simp)
              · exact hw.2 h
        · rw [if_neg hat]
          have hc := nochild y r (by rw [nameSegs_plain hy.1]; simp)
          simp only [hc]
    · cases b with
      | true =>
        rcases hb rfl with h | h
        · cases h
        · simp at h; exact absurd h hxn
      | false =>
        rw [atStep, if_neg, if_pos rfl]
        rintro (⟨h, _⟩ | h | h)
        · exact hxn h
        · exact hx.1 (by rw [h]; simp)
        · exact hx.2 h

end Oro
