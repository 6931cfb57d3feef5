import Verif.Props.BinLife
import Verif.Props.LinkEnds
import Verif.Props.TriedEx
/-
C96, C99: an example.
-/

set_option linter.unusedSectionVars false

namespace Oro
namespace Hoisted

theorem inBin_up {p : Loc} (r : Loc) (h : InBin p) : InBin (p ++ r) := by
  obtain ⟨q, s, rfl, hq⟩ := h
  exact ⟨q, s ++ r, by simp, hq⟩

namespace ExK
open ExI

/-- `c`, which is in the folder of `a`, has a command -/
def pkB : Pkgs UInt8 := { pk with bins := fun b => if b = 1 then [(['y'], [Tar.kPackageJson])] else [] }

theorem goodsB : Goods ExT.env build id pkB v g o fetch (fun b => [b]) none ExF.half where
  tree := ⟨installable.tree, installable.order, installable.names, installable.dirs, installable.bundled⟩
  packages := goods.packages
  packed := goods.packed
  built i nd h0 hi := by
    have := goods.built i nd h0 hi
    rcases which h0 hi with h | h | h <;> rw [h] at this ⊢ <;> exact this
  sight := goods.sight
  reading := goods.reading

open Classical in
theorem keptB : ∃ fs rec, Kept ExT.env build id pkB v o fetch (fun b => [b]) g fs rec ∧ ∀ p, InBin p → seen id o.root fs p = none := by
  obtain ⟨hA, M, hM⟩ := C96_first ExT.ord_perm noCol half_machine clear goodsB s turns fair
  obtain ⟨w, hw, _⟩ := hA M
  obtain ⟨l, hl⟩ := Option.isSome_iff_exists.1 (show (toLockfile v g).isSome = true by decide +kernel)
  have hk := Kept.first half_machine clear goodsB (turns M) hw (hM M (Nat.le_refl _) w hw) (recorded_self hl)
  have hm := (C96_kept ExT.ord_perm noCol hk).2.2.2
  have hfile : ∀ p i, (without o.root (fun p => decide (InBin p)) w.runs.fs).files p = some i → w.runs.fs.files p = some i := by
    intro p i h
    simp only [without] at h
    split at h
    · cases h
    · exact h
  refine ⟨without o.root (fun p => decide (InBin p)) w.runs.fs, _, .other hk ⟨proper_without (fun p r h => ?_) hm.proper,
    ⟨fun p i h => hm.sane.1 p i (hfile p i h), hm.sane.2⟩, hm.honest⟩ fun p hp => ?_, fun p hp => ?_⟩
  · simp only [decide_eq_true_eq] at h ⊢
    exact inBin_up r h
  · rw [seen_without, if_neg (by simpa using hp)]
  · rw [seen_without, if_pos (by simpa using hp)]

/-- C96_linking, C99_kept: the project is installed, then the command is linked, and can be executed -/
example : ∃ fs rec x p q, Kept ExT.env build id pkB v o fetch (fun b => [b]) g fs rec ∧ Sight id o.root (seen id o.root fs) fs ∧
    AllExecutable o.root (seen id o.root fs) fs ∧ BReach pkB 1 o.root g [3, 1] (seen id o.root fs) fs x ∧ x.links.done = true ∧
    Kept ExT.env build id pkB v o fetch (fun b => [b]) g x.fs rec ∧ nmWord :: p = folder [['a']] ++ [nmWord, binName, ['y']] ∧
    x.links.tree p = some (.link q) := by
  obtain ⟨fs, rec, hk, hb⟩ := keptB
  obtain ⟨hg, hi, _, _⟩ := C96_kept ExT.ord_perm noCol hk
  obtain ⟨evs, hev⟩ := (C35_ends pkB 1 g [3, 1] (seen id o.root fs)).2 _ .init
  have hnone : ∀ (j : Nat) (nd : Node Str UInt8 Nat), j ≠ 0 → g.nodes[j]? = some nd → seen id o.root fs (binDir (targetDir g j)) = none := fun j nd j0 hj =>
    hb _ (by simpa using bin_in hg j0 hj [])
  rcases hev with he | ⟨y, hy, hd⟩
  · exfalso
    obtain ⟨y, ev, h1, h2⟩ := lreach_fails evs .init he
    obtain ⟨h3, h4⟩ := lalone hg hi hnone h1
    obtain ⟨_, e, _⟩ := lalone_step hg hi h3 h4 h2
    cases e
  · obtain ⟨f, hx⟩ := LReach.files (root := o.root) (fs := fs) (lreach_run evs .init hy)
    have hall : AllExecutable o.root (seen id o.root fs) fs := fun p q h => by
      have := sight_seen.links p q h
      rw [hb p this] at h; cases h
    have hloc : LocatedAt g 3 ([['a']] ++ [c]) :=
      .inside (nd := ⟨c, 1, [], some 1, [], []⟩) rfl rfl (.inside (nd := ⟨['a'], 2, [], some 0, [(c, 3)], []⟩) (π := []) rfl rfl (.root rfl))
    obtain ⟨j, nj, n', f', p, q, _, _, _, hp, _, hlk, _⟩ := C99_kept ExT.ord_perm noCol hk sight_seen hall hx hd (fun i nd hi b hb => by
      simp only [pkB] at hb
      split at hb
      · simp only [List.mem_singleton] at hb
        subst hb
        decide +kernel
      · cases hb) 3 ⟨c, 1, [], some 1, [], []⟩ [['a']] c ['y'] [Tar.kPackageJson] (by simp) rfl hloc (by simp [pkB]) (by
        have : ∃ e, pkB.content 1 [Tar.kPackageJson] = some e := ⟨_, rfl⟩
        obtain ⟨e, he⟩ := this
        rw [he]; simp)
    exact ⟨fs, rec, _, p, q, hk, sight_seen, hall, hx, hd, (C96_linking ExT.ord_perm noCol hk sight_seen hx).1, hp, hlk⟩

end ExK
end Hoisted
end Oro
