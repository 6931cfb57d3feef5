import Verif.Props.FileLife
import Verif.Props.FurtherEx
/-
C96: such a life.
-/

set_option linter.unusedSectionVars false

namespace Oro
namespace Hoisted
namespace ExK
open ExI

def v : LockView UInt8 Nat Nat Nat := ⟨fun _ => [], fun p => .npm p.toNat [] none, fun _ => []⟩

theorem half_machine : Machine ExT.env ExF.half :=
  ⟨C95_half_fails.1, C95_half_fails.2.1, C95_half_fails.2.2.1⟩

/-- an interrupted first install left half of a package and no meta file -/
theorem goods : Goods ExT.env build id pk v g o fetch (fun b => [b]) none ExF.half where
  tree := installable
  packages i nd j h0 hi hj _ := by
    obtain ⟨a, b, c, d, e, f⟩ := start.packages i nd j h0 hi hj
    exact ⟨a, b, c, d, e, f⟩
  packed := start.packed
  built := start.built
  sight := start.sight
  reading := start.reading

theorem fair (i : Nat) (nd : Node Str UInt8 Nat) (h0 : i ≠ 0) (hi : g.nodes[i]? = some nd) (N : Nat) : ∃ m, N ≤ m ∧ s m = i := by
  have : i < 4 := by rcases nodes h0 hi with ⟨h, _⟩ | ⟨h, _⟩ | ⟨h, _⟩ <;> omega
  exact ⟨4 * N + i, by omega, by unfold s; omega⟩

theorem clear (q : Loc) (hq : q <+: o.root ++ [nmWord]) : ExF.half.files q = none := by
  by_contra h
  have hx : ExF.half.dirs q = true := half_machine.proper.closed (o.root ++ [nmWord]) (by decide +kernel) q hq
  rw [half_machine.proper.apart q h] at hx; cases hx

/-- the project gets its packages, and applying again changes nothing -/
example : ∃ fs recorded, Kept ExT.env build id pk v o fetch (fun b => [b]) g fs recorded ∧ Installed pk g (seen id o.root fs) ∧
    ∀ sched, ∃ w, applyRun ExT.env build v g o fetch (some recorded) sched fs = some w ∧ w.runs.fs.index = fs.index ∧
      Installed pk g (seen id o.root w.runs.fs) := by
  obtain ⟨hA, M, hM⟩ := C96_first ExT.ord_perm noCol half_machine clear goods s turns fair
  obtain ⟨w, hw, _⟩ := hA M
  obtain ⟨l, hl⟩ := Option.isSome_iff_exists.1 (show (toLockfile v g).isSome = true by decide +kernel)
  have hk : Kept ExT.env build id pk v o fetch (fun b => [b]) g w.runs.fs l.packages :=
    .first half_machine clear goods (turns M) hw (hM M (Nat.le_refl _) w hw) (recorded_self hl)
  have hi := (C96_kept ExT.ord_perm noCol hk).2.1
  refine ⟨_, _, hk, hi, fun sched => ?_⟩
  obtain ⟨w', h1, _, h2, _, _, _, h3⟩ := C96_again ExT.ord_perm noCol hk sched
  exact ⟨w', h1, h3, fun p hb e => by rw [h2 p hb]; exact hi p hb e⟩

end ExK
end Hoisted
end Oro
