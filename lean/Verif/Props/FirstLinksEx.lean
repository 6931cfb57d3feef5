import Verif.Props.FirstLinks
import Verif.Props.BinLifeEx
/-
C99_first: an example.
-/

set_option linter.unusedSectionVars false

namespace Oro
namespace Hoisted
namespace ExK
open ExI

/-- over half a package that an interrupted install left, three packages are installed; then the command of `c`, which is in the folder
of `a`, is linked and can be executed -/
example : ∃ w x p q, applyRun ExT.env build v g o fetch none ((List.range w).map s) ExF.half = some x ∧ Over g x ∧
    ∃ y, BReach pkB 1 o.root g [3, 1] (seen id o.root x.runs.fs) x.runs.fs y ∧ y.links.done = true ∧
      nmWord :: p = folder [['a']] ++ [nmWord, binName, ['y']] ∧ y.links.tree p = some (.link q) := by
  obtain ⟨hA, M, hM⟩ := C96_first ExT.ord_perm noCol half_machine clear goodsB s turns fair
  obtain ⟨w, hw, _⟩ := hA M
  have hov := hM M (Nat.le_refl _) w hw
  have hnest : ∀ (i : Nat) (nd : Node Str UInt8 Nat), g.nodes[i]? = some nd → ∀ b ∈ pkB.bins nd.pkg, nmWord ∉ b.2 := fun i nd hi b hb => by
    simp only [pkB] at hb
    split at hb
    · simp only [List.mem_singleton] at hb
      subst hb
      decide +kernel
    · cases hb
  have hfirst := fun {x : BinRun} => C99_first (x := x) ExT.ord_perm noCol half_machine clear goodsB (turns M) hw hov hnest
    ⟨3, ⟨c, 1, [], some 1, [], []⟩, by decide, rfl⟩ [3, 1]
  obtain ⟨_, ⟨evs, y, hy, hd⟩, _⟩ := hfirst .init
  obtain ⟨f, hx⟩ := LReach.files (root := o.root) (fs := w.runs.fs) (lreach_run evs .init hy)
  have hloc : LocatedAt g 3 ([['a']] ++ [c]) :=
    .inside (nd := ⟨c, 1, [], some 1, [], []⟩) rfl rfl (.inside (nd := ⟨['a'], 2, [], some 0, [(c, 3)], []⟩) (π := []) rfl rfl (.root rfl))
  obtain ⟨j, nj, n', f', p, q, _, _, _, hp, _, hlk, _⟩ := (hfirst hx).2.2 hd 3 ⟨c, 1, [], some 1, [], []⟩ [['a']] c ['y'] [Tar.kPackageJson] (by simp) rfl hloc
    (by simp [pkB]) (by
      have : ∃ e, pkB.content 1 [Tar.kPackageJson] = some e := ⟨_, rfl⟩
      obtain ⟨e, he⟩ := this
      rw [he]; simp)
  exact ⟨M, w, p, q, hw, hov, _, hx, hd, hp, hlk⟩

end ExK
end Hoisted
end Oro
