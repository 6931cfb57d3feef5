import Verif.Props.Offline
import Verif.Props.InstallRunEx
import Verif.Props.StoreRunEx
/-
C97: such installs; and packages without an integrity.
-/

set_option linter.unusedSectionVars false

namespace Oro
namespace Hoisted
namespace ExI

theorem turns_any (jobs : Nat → Option Tar.Job) (m : Nat) : ListOrder jobs ((List.range m).map s) := by
  intro pre n post h _ k hk _
  have hlen := congrArg List.length h
  simp only [List.length_map, List.length_range, List.length_append, List.length_cons] at hlen
  have hn : n = pre.length % 4 := by
    have := congrArg (fun l => l[pre.length]?) h
    simp only [List.getElem?_map] at this
    rw [List.getElem?_range (by omega), List.getElem?_append_right (Nat.le_refl _)] at this
    simp only [Option.map_some, Nat.sub_self, List.getElem?_cons_zero, Option.some.injEq] at this
    exact this.symm
  have hkl : k < pre.length := lt_of_lt_of_le hk (by rw [hn]; exact Nat.mod_le _ _)
  refine List.mem_iff_getElem?.2 ⟨k, ?_⟩
  have := congrArg (fun l => l[k]?) h
  simp only [List.getElem?_map] at this
  rw [List.getElem?_range (by omega), List.getElem?_append_left hkl] at this
  rw [← this]
  simp only [Option.map_some, s, Option.some.injEq]
  exact Nat.mod_eq_of_lt (by omega)

theorem often (i : Nat) (nd : Node Str UInt8 Nat) (hi : g.nodes[i]? = some nd) (N : Nat) : ∃ m, N ≤ m ∧ s m = i := by
  have : i < 4 := by
    by_contra hge
    rw [List.getElem?_eq_none (by simp only [g, List.length_cons, List.length_nil]; omega)] at hi
    cases hi
  exact ⟨4 * N + i, by omega, by unfold s; omega⟩

/-- the disk after an install whose node_modules is removed again -/
def emptied (a : Tar.FS) : Tar.FS := { a with files := fun _ => none, dirs := fs.dirs }

theorem emptied_sane {a : Tar.FS} (h : Tar.Sane a) : Tar.Sane (emptied a) := ⟨fun _ _ h => (by cases h), h.2⟩

theorem emptied_bare (a : Tar.FS) : EmptyModules o.root (emptied a) :=
  ⟨start.bare.closed, start.bare.modules, fun _ _ => rfl, fun p hp => ⟨rfl, (start.bare.empty p hp).2⟩⟩

theorem emptied_kept (a : Tar.FS) : Tar.CacheKept ExT.env a (emptied a) := ⟨fun _ _ h => h, fun _ k h1 h2 => ⟨k, h1, h2⟩⟩

/-- two of the packages come from the network; then node_modules is removed, and they are installed again without it, copied now -/
example : ∃ M a, (∀ i nd, i ≠ 0 → g.nodes[i]? = some nd → ∃ b, ((XRun.init fs).run ExT.env build (jobsFor o g fetch) ((List.range M).map s)).phase i =
      .extracted b) ∧ a = emptied ((XRun.init fs).run ExT.env build (jobsFor o g fetch) ((List.range M).map s)).runs.fs ∧
    ∃ N, Installed pk g (seen id o.root ((XRun.init a).run ExT.env build (jobsFor { o with preferCopy := true } g (offline fetch))
      ((List.range N).map s)).runs.fs) := by
  obtain ⟨M, hM⟩ := C92_ends ExT.ord_perm noCol fs_sane fs_honest start s turns (fun i nd _ hi => often i nd hi)
  have hR := ready_of start
  have hF := Tar.fine_run ExT.ord_perm noCol hR ((List.range M).map s) _ (Tar.fine_init fs_sane (Tar.honest_weak fs_honest) hR)
  rw [← (runinv_run ExT.ord_perm noCol fs_sane fs_honest start _ (turns M)).runs] at hF
  obtain ⟨_, N, hN⟩ := C97_offline (o' := { o with preferCopy := true }) (g' := g) ExT.ord_perm noCol fs_sane fs_honest start rfl (fun i nd _ _ h => by cases h) _ (turns M)
    (hM M (Nat.le_refl _)) (emptied_kept _) (emptied_sane hF.inv.sane)
    (fun k idx hk => Tar.honest_strong trivial hF.inv.honest k idx hk) installable (emptied_bare _) rfl
    (fun i nd h0 hi => ⟨i, nd, h0, hi, rfl⟩) s (turns_any _) (fun i nd _ hi => often i nd hi)
  exact ⟨M, _, hM M (Nat.le_refl _), rfl, N, hN N (Nat.le_refl _)⟩

end ExI
end Hoisted

namespace Iso
namespace ExI
open Hoisted.ExI (fs o pk fetch fs_sane fs_honest noCol emptied emptied_sane emptied_bare emptied_kept)

theorem often (i : Nat) (nd : Node Str UInt8 Nat) (hi : g.nodes[i]? = some nd) (N : Nat) : ∃ m, N ≤ m ∧ s m = i :=
  Hoisted.ExI.often i nd hi N

/-- the same with the isolated linker -/
example : ∃ M a, (∀ i nd, g.nodes[i]? = some nd → ∃ x, ((LRun.init o fs).run ExT.env build o Ex.v g fetch ((List.range M).map s)).phase i = .finished x) ∧
    a = emptied ((LRun.init o fs).run ExT.env build o Ex.v g fetch ((List.range M).map s)).runs.fs ∧
    ∃ N, Exact pk Ex.v g (seen id o.root ((LRun.init o a).run ExT.env build o Ex.v g (Hoisted.offline fetch) ((List.range N).map s)).runs.fs
      ((LRun.init o a).run ExT.env build o Ex.v g (Hoisted.offline fetch) ((List.range N).map s)).links) := by
  obtain ⟨M, hM⟩ := C93_ends ExT.ord_perm noCol fs_sane fs_honest start s often
  have hF := (linv_run ExT.ord_perm noCol start (linv_init fs_sane fs_honest start) ((List.range M).map s)).fine
  obtain ⟨_, N, hN⟩ := C97_offline (o' := o) (g' := g) ExT.ord_perm noCol fs_sane fs_honest start rfl (fun i nd _ _ h => by cases h) ((List.range M).map s)
    (hM M (Nat.le_refl _)) (emptied_kept _) (emptied_sane hF.inv.sane)
    (fun k idx hk => Tar.honest_strong trivial hF.inv.honest k idx hk) installable (emptied_bare _) rfl
    (fun i nd h0 hi => ⟨i, nd, h0, hi, rfl⟩) s often
  exact ⟨M, _, hM M (Nat.le_refl _), rfl, N, hN N (Nat.le_refl _)⟩

end ExI
end Iso

namespace Tar

/-- a package without an integrity is extracted -/
def ExT.bare : Runs := (Runs.init ExT.empty).run ExT.env (fun _ => some ⟨ExT.d1, true, .hardlink, none, ExT.net 1⟩) (List.replicate 40 0)

/-- C97 is false of packages without an integrity (those from git, from an address, or published without one): they are in the cache after they
were extracted, but without the network they cannot be extracted again, whatever is in the cache. -/
theorem C97_unverified_fails :
    (ExT.bare.pcs 0).outcome = some (some (ExT.env.sri [1])) ∧ (ExT.bare.fs.index (ExT.env.sri [1])).isSome = true ∧
    ∀ (env : Env) (fs : FS) (j : Job), j.expected = none → j.net = none →
      (((Runs.init fs).run env (fun _ => some j) [0, 0]).pcs 0).outcome = some none := by
  refine ⟨by decide +kernel, by decide +kernel, fun env fs j h1 h2 => ?_⟩
  simp [Runs.run, Runs.step, Job.step, Runs.init, h1, h2, upd_self, PC.outcome]

end Tar
end Oro
