import Verif.Props.Offline
import Verif.Props.FileLife
/-
C97 along the life of a project.
-/

set_option linter.unusedSectionVars false

namespace Oro
namespace Hoisted
variable {P S V I : Type} [DecidableEq S] [DecidableEq V] [DecidableEq I]
variable {env : Tar.Env} {build : Bytes → Option Bool} {pr : Bytes → Bytes} {pk : Pkgs P} {v : LockView P S V I} {o : XOpts}
  {fetch : P → Option Tar.Integrity × Option (List Tar.Ev)} {tar : P → Bytes}

theorem cached_of (ho : ∀ f, (env.ord f).Perm f) (hcol : Tar.NoCol env) {g : Graph Str P S} {fs fs' : Tar.FS} {c} {recorded : Option (IMap Str (LNode V I))}
    (hmk : Tar.mkdirp [] (pruneFS v g o.root recorded fs) (o.root ++ [nmWord]) = some (c, fs')) (hs : Tar.Sane fs') (hh : Tar.Honest env fs')
    (hf : Further env build pr pk g o fetch tar fs') (hc : o.cache = true) {sched : List Nat} (hord : ListOrder (jobsFor o g fetch) sched) {w : XRun}
    (hw : applyRun env build v g o fetch recorded sched fs = some w) :
    (∀ i nd b k, i ≠ 0 → g.nodes[i]? = some nd → w.phase i = .extracted b → (fetch nd.pkg).1 = some k → Tar.InCache env k w.runs.fs) ∧
    ∀ k, Tar.InCache env k fs → Tar.InCache env k w.runs.fs := by
  unfold applyRun at hw
  rw [hmk] at hw
  cases hw
  obtain ⟨h1, h2⟩ := C97_cached ho hcol hs hh hf hc sched hord
  refine ⟨h1, fun k hk => h2 k ?_⟩
  obtain ⟨d, rfl⟩ := Tar.mkdirp_eq hmk
  exact hk

/-- C97: the first install in a project leaves in the cache what it extracts, and all that was there. -/
theorem C97_first (ho : ∀ f, (env.ord f).Perm f) (hcol : Tar.NoCol env) {g : Graph Str P S} {fs : Tar.FS} (hm : Machine env fs)
    (hno : ∀ q, q <+: o.root ++ [nmWord] → fs.files q = none) (hg : Goods env build pr pk v g o fetch tar none fs) (hc : o.cache = true)
    {sched : List Nat} (hord : ListOrder (jobsFor o g fetch) sched) {w : XRun} (hw : applyRun env build v g o fetch none sched fs = some w) :
    (∀ i nd b k, i ≠ 0 → g.nodes[i]? = some nd → w.phase i = .extracted b → (fetch nd.pkg).1 = some k → Tar.InCache env k w.runs.fs) ∧
    ∀ k, Tar.InCache env k fs → Tar.InCache env k w.runs.fs := by
  obtain ⟨c, fs', hmk, hs, hh, hf⟩ := first_further hm hno hg
  exact cached_of ho hcol hmk hs hh hf hc hord hw

/-- C97: so does every further one. -/
theorem C97_next (ho : ∀ f, (env.ord f).Perm f) (hcol : Tar.NoCol env) {g0 g1 : Graph Str P S} {fs : Tar.FS} {rec0 : IMap Str (LNode V I)}
    (h : Kept env build pr pk v o fetch tar g0 fs rec0) (hn : Noticed pk v g0 g1 rec0) (hg : Goods env build pr pk v g1 o fetch tar (some rec0) fs)
    (hc : o.cache = true) {sched : List Nat} (hord : ListOrder (jobsFor o g1 fetch) sched) {w : XRun}
    (hw : applyRun env build v g1 o fetch (some rec0) sched fs = some w) :
    (∀ i nd b k, i ≠ 0 → g1.nodes[i]? = some nd → w.phase i = .extracted b → (fetch nd.pkg).1 = some k → Tar.InCache env k w.runs.fs) ∧
    ∀ k, Tar.InCache env k fs → Tar.InCache env k w.runs.fs := by
  obtain ⟨h1, h2, _, h4⟩ := C96_kept ho hcol h
  obtain ⟨c, fs', hmk, hs, hh, hf⟩ := next_further h4 h1 h2 hn hg
  exact cached_of ho hcol hmk hs hh hf hc hord hw

end Hoisted
end Oro
