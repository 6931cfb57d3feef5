import Verif.Proofs.Tried
/-
C96: the life of a project, install after install, down to the accesses to the file system and the cache (hoisted linker).
-/

set_option linter.unusedSectionVars false

namespace Oro
namespace Hoisted
variable {P S V I : Type} [DecidableEq S] [DecidableEq V] [DecidableEq I]
variable {env : Tar.Env} {build : Bytes → Option Bool} {pr : Bytes → Bytes} {pk : Pkgs P} {v : LockView P S V I} {o : XOpts}
  {fetch : P → Option Tar.Integrity × Option (List Tar.Ev)} {tar : P → Bytes}

/-- C96: whatever installs a project has been through, in whatever order the accesses of concurrently extracted packages came, and
whatever else happened on the machine in between: what is below node_modules (commands apart) is exactly what its tree asks for, and
the files, folders and cache of the machine are in order. -/
theorem C96_kept (ho : ∀ f, (env.ord f).Perm f) (hcol : Tar.NoCol env) {g : Graph Str P S} {fs : Tar.FS} {recorded : IMap Str (LNode V I)}
    (h : Kept env build pr pk v o fetch tar g fs recorded) :
    Installable pk g ∧ Installed pk g (seen pr o.root fs) ∧ Recorded v g (some recorded) ∧ Machine env fs := by
  induction h with
  | @first g fs recorded sched w hm hno hg hord hw hov hrec =>
    obtain ⟨c, fs', hmk, hs, hh, hf⟩ := first_further hm hno hg
    unfold applyRun at hw
    rw [hmk] at hw
    cases hw
    obtain ⟨h1, h2⟩ := further_leaves ho hcol hs hh hf hord hov
    exact ⟨hg.tree, h1, hrec, h2⟩
  | @next g0 g1 fs fs1 rec0 rec1 sched w _ hn ht hg hord hw hov hrec ih =>
    have hP : Prev pk v g0 g1 rec0 (seen pr o.root fs) := ⟨ih.1, hg.tree, ih.2.1, hn⟩
    obtain ⟨hm, hA⟩ := tried_amidst ho hcol ih.2.2.2 hP ht
    obtain ⟨c, fs', hmk, hs, hh, hf⟩ := amidst_further hm hP hA hg
    unfold applyRun at hw
    rw [hmk] at hw
    cases hw
    obtain ⟨h1, h2⟩ := further_leaves ho hcol hs hh hf hord hov
    exact ⟨hg.tree, h1, hrec, h2⟩
  | other _ hm hsame ih =>
    exact ⟨ih.1, fun p hb e => by rw [hsame p hb]; exact ih.2.1 p hb e, ih.2.2.1, hm⟩

theorem ends_kept (ho : ∀ f, (env.ord f).Perm f) (hcol : Tar.NoCol env) {g : Graph Str P S} {fs fs' : Tar.FS} {c} {recorded : Option (IMap Str (LNode V I))}
    (hmk : Tar.mkdirp [] (pruneFS v g o.root recorded fs) (o.root ++ [nmWord]) = some (c, fs')) (hs : Tar.Sane fs') (hh : Tar.Honest env fs')
    (hf : Further env build pr pk g o fetch tar fs') (s : Nat → Nat) (hord : ∀ m, ListOrder (jobsFor o g fetch) ((List.range m).map s))
    (hfair : ∀ i nd, i ≠ 0 → g.nodes[i]? = some nd → ∀ N, ∃ m, N ≤ m ∧ s m = i) :
    (∀ m, ∃ w, applyRun env build v g o fetch recorded ((List.range m).map s) fs = some w ∧
      ∀ i nd, i ≠ 0 → g.nodes[i]? = some nd → w.phase i ≠ .failed) ∧
    ∃ M, ∀ m, M ≤ m → ∀ w, applyRun env build v g o fetch recorded ((List.range m).map s) fs = some w → Over g w := by
  have hap : ∀ m, applyRun env build v g o fetch recorded ((List.range m).map s) fs =
      some ((XRun.init fs').run env build (jobsFor o g fetch) ((List.range m).map s)) := fun m => by unfold applyRun; rw [hmk]; rfl
  obtain ⟨M, hM⟩ := C95_ends ho hcol hs hh hf s hord hfair
  refine ⟨fun m => ⟨_, hap m, fun i nd h0 hi => (C95_no_failure ho hcol hs hh hf _ (hord m) i nd h0 hi).1⟩, M, fun m hm w hw => ?_⟩
  rw [hap m] at hw
  cases hw
  exact hM m hm

/-- C96: the first install begins, nothing fails at any moment, and if every package is given its turns it comes to its end. -/
theorem C96_first (ho : ∀ f, (env.ord f).Perm f) (hcol : Tar.NoCol env) {g : Graph Str P S} {fs : Tar.FS} (hm : Machine env fs)
    (hno : ∀ q, q <+: o.root ++ [nmWord] → fs.files q = none) (hg : Goods env build pr pk v g o fetch tar none fs)
    (s : Nat → Nat) (hord : ∀ m, ListOrder (jobsFor o g fetch) ((List.range m).map s))
    (hfair : ∀ i nd, i ≠ 0 → g.nodes[i]? = some nd → ∀ N, ∃ m, N ≤ m ∧ s m = i) :
    (∀ m, ∃ w, applyRun env build v g o fetch none ((List.range m).map s) fs = some w ∧
      ∀ i nd, i ≠ 0 → g.nodes[i]? = some nd → w.phase i ≠ .failed) ∧
    ∃ M, ∀ m, M ≤ m → ∀ w, applyRun env build v g o fetch none ((List.range m).map s) fs = some w → Over g w := by
  obtain ⟨c, fs', hmk, hs, hh, hf⟩ := first_further hm hno hg
  exact ends_kept ho hcol hmk hs hh hf s hord hfair

/-- C96: and so does every further one, in every project that was kept this way. -/
theorem C96_next_partial (ho : ∀ f, (env.ord f).Perm f) (hcol : Tar.NoCol env) {g0 g1 : Graph Str P S} {fs : Tar.FS} {rec0 : IMap Str (LNode V I)}
    (h : Kept env build pr pk v o fetch tar g0 fs rec0) (hn : Noticed pk v g0 g1 rec0) (hg : Goods env build pr pk v g1 o fetch tar (some rec0) fs)
    (s : Nat → Nat) (hord : ∀ m, ListOrder (jobsFor o g1 fetch) ((List.range m).map s))
    (hfair : ∀ i nd, i ≠ 0 → g1.nodes[i]? = some nd → ∀ N, ∃ m, N ≤ m ∧ s m = i) :
    (∀ m, ∃ w, applyRun env build v g1 o fetch (some rec0) ((List.range m).map s) fs = some w ∧
      ∀ i nd, i ≠ 0 → g1.nodes[i]? = some nd → w.phase i ≠ .failed) ∧
    ∃ M, ∀ m, M ≤ m → ∀ w, applyRun env build v g1 o fetch (some rec0) ((List.range m).map s) fs = some w → Over g1 w := by
  obtain ⟨h1, h2, _, h4⟩ := C96_kept ho hcol h
  obtain ⟨c, fs', hmk, hs, hh, hf⟩ := next_further h4 h1 h2 hn hg
  exact ends_kept ho hcol hmk hs hh hf s hord hfair

/-- whatever is there is passed over -/
theorem all_taken {jobs : Nat → Option Tar.Job} {fs : Tar.FS} (h : ∀ n j, jobs n = some j → fs.taken j.dir = true) (sched : List Nat) :
    ((XRun.init fs).run env build jobs sched).runs = .init fs ∧
    ∀ n, ((XRun.init fs).run env build jobs sched).phase n = .waiting ∨ ((XRun.init fs).run env build jobs sched).phase n = .skipped := by
  induction sched using List.reverseRecOn with
  | nil => exact ⟨rfl, fun _ => .inl rfl⟩
  | append_singleton l m ih =>
    rw [xrun_snoc]
    generalize (XRun.init fs).run env build jobs l = w at ih ⊢
    unfold XRun.step
    cases hj : jobs m with
    | none => exact ih
    | some j =>
      simp only
      rcases ih.2 m with hw | hw
      · have ht : w.runs.fs.taken j.dir = true := by rw [ih.1]; exact h m j hj
        simp only [hw, ht, if_true]
        refine ⟨ih.1, fun n => ?_⟩
        by_cases he : n = m
        · rw [he, Tar.upd_self]; exact .inr rfl
        · rw [Tar.upd_ne _ _ he]; exact ih.2 n
      · simp only [hw]
        exact ih

/-- C96: applying the same tree again extracts nothing (so it needs neither network nor cache), and leaves node_modules (commands
apart), the files outside it and the cache as they are, at every moment. -/
theorem C96_again (ho : ∀ f, (env.ord f).Perm f) (hcol : Tar.NoCol env) {g : Graph Str P S} {fs : Tar.FS} {recorded : IMap Str (LNode V I)}
    (h : Kept env build pr pk v o fetch tar g fs recorded) (sched : List Nat) :
    ∃ w, applyRun env build v g o fetch (some recorded) sched fs = some w ∧ (∀ n, w.phase n = .waiting ∨ w.phase n = .skipped) ∧
      (∀ p, ¬ InBin p → seen pr o.root w.runs.fs p = seen pr o.root fs p) ∧ (∀ p, ¬ o.root ++ [nmWord] <+: p → w.runs.fs.files p = fs.files p) ∧
      w.runs.fs.content = fs.content ∧ w.runs.fs.store = fs.store ∧ w.runs.fs.index = fs.index := by
  obtain ⟨hg, hi, hrec, hm⟩ := C96_kept ho hcol h
  have hP : Prev pk v g g recorded (seen pr o.root fs) := ⟨hg, hg, hi, noticed_refl⟩
  have hr : seen pr o.root fs [] ≠ none := by rw [hP.root]; simp
  have hsame : ∀ p, ¬ InBin p → seen pr o.root (pruneFS v g o.root (some recorded) fs) p = seen pr o.root fs p := fun p hb => by
    rw [seen_prune hr hP.store p]
    exact (C33_again pk v g hg ⟨seen pr o.root fs, some recorded⟩ hi hrec).1 p hb
  have hp := proper_prune (v := v) (g := g) (root := o.root) (recorded := some recorded) hm.proper
  have hd : (pruneFS v g o.root (some recorded) fs).dirs (o.root ++ [nmWord]) = true := by
    have h1 := hsame [] not_inBin_nil
    rw [hP.root] at h1
    unfold seen at h1
    split at h1
    · cases h1
    · split at h1
      · assumption
      · cases h1
  obtain ⟨c, fs', hmk, _, _, hfs⟩ := mkdirp_modules (root := o.root) hp (fun q hq => by
    by_contra hne
    have h1 := hp.apart q hne
    rw [hp.closed _ hd q hq] at h1; cases h1)
  have hfs' : fs' = pruneFS v g o.root (some recorded) fs := by
    rw [hfs]
    have : (fun q => (pruneFS v g o.root (some recorded) fs).dirs q || (o.root ++ [nmWord]).inits.contains q) =
        (pruneFS v g o.root (some recorded) fs).dirs := funext (inits_dirs hp hd)
    rw [this]
  subst hfs'
  have htk : ∀ n j, jobsFor o g fetch n = some j → (pruneFS v g o.root (some recorded) fs).taken j.dir = true := by
    intro n j hj
    obtain ⟨h0, nd, hn, _, hdir⟩ := jobsFor_some (tar := tar) hj
    obtain ⟨π, hl⟩ := located_of hg hn
    have htf := nm_target hg h0 hl
    have hb : ¬ InBin (targetDir g n) := not_inBin_way (located_inst hg hl) (by rw [htf])
    by_contra hc
    rw [Bool.not_eq_true, hdir, ← seen_taken (pr := pr), hsame _ hb] at hc
    have : seen pr o.root fs (targetDir g n) = some .dir :=
      (hi _ hb .dir).2 (.inl ⟨n, nd, π, [], h0, hn, hl, by rw [htf]; simp, hg.dirs n nd h0 hn⟩)
    rw [this] at hc; cases hc
  obtain ⟨hA, hB⟩ := all_taken (env := env) (build := build) htk sched
  refine ⟨(XRun.init _).run env build (jobsFor o g fetch) sched, by unfold applyRun; rw [hmk]; rfl, hB, fun p hb => ?_, fun p hn => ?_, ?_, ?_, ?_⟩
  · rw [hA]; exact hsame p hb
  · rw [hA]
    show (if _ then _ else _) = _
    rw [if_neg]
    intro hx
    obtain ⟨r, rfl, _⟩ := removed_below hx
    exact hn (List.prefix_append _ _)
  all_goals rw [hA]; rfl

/-- what an install does outside node_modules -/
theorem outside_of (ho : ∀ f, (env.ord f).Perm f) (hcol : Tar.NoCol env) {g : Graph Str P S} {fs fs' : Tar.FS} {c} {recorded : Option (IMap Str (LNode V I))}
    (hmk : Tar.mkdirp [] (pruneFS v g o.root recorded fs) (o.root ++ [nmWord]) = some (c, fs')) (hs : Tar.Sane fs') (hh : Tar.Honest env fs')
    (hf : Further env build pr pk g o fetch tar fs') (hp : Tar.Proper (pruneFS v g o.root recorded fs))
    (hno : ∀ q, q <+: o.root ++ [nmWord] → (pruneFS v g o.root recorded fs).files q = none) (hm : Machine env fs) {sched : List Nat}
    (hord : ListOrder (jobsFor o g fetch) sched) {w : XRun} (hw : applyRun env build v g o fetch recorded sched fs = some w) (p : Loc)
    (hout : ¬ o.root ++ [nmWord] <+: p) :
    w.runs.fs.files p = fs.files p ∧ (∀ c, Tar.Holds fs p c → ∃ c', Tar.Holds w.runs.fs p c' ∧ env.xxh c' = env.xxh c) ∧
    (fs.dirs p = true → w.runs.fs.dirs p = true) := by
  unfold applyRun at hw
  rw [hmk] at hw
  cases hw
  have hx := furtherinv_run ho hcol hs hh hf sched hord
  have hF := Tar.fine_run ho hcol (further_ready hf) sched _ (fine_further hs hh hf)
  have hH := Tar.housed_run ho sched _ (Tar.housed_init (jobs := absent (jobsFor o g fetch) fs') fs')
  dsimp only
  rw [hx.runs]
  obtain ⟨_, fs2, hmk2, _, _, hfs⟩ := mkdirp_modules hp hno
  rw [hmk] at hmk2
  cases hmk2
  have hrem : removed v g o.root recorded fs p = false := by
    by_contra hc
    rw [Bool.not_eq_false] at hc
    obtain ⟨r, rfl, _⟩ := removed_below hc
    exact hout (List.prefix_append _ _)
  have h0 : fs'.files p = fs.files p := by
    rw [hfs]
    show (if _ then _ else _) = _
    rw [if_neg (by rw [hrem]; simp)]
  have hfile : ((Tar.Runs.init fs').run env (absent (jobsFor o g fetch) fs') sched).fs.files p = fs.files p := by
    rw [← h0]
    refine hF.inv.files p fun n j hj e he hr hpl => hout ?_
    have hP := (further_ready hf).place hj
    obtain ⟨l, h1, _, _⟩ := hP.names he hr
    rw [← hpl, h1, job_dir (absent_some.1 hj).1]
    exact ⟨targetDir g n ++ l, by simp⟩
  refine ⟨hfile, fun c hc => ?_, fun hd => hH.up p ?_⟩
  · obtain ⟨i, h1, h2⟩ := hc
    refine ⟨_, ⟨i, by rw [hfile]; exact h1, rfl⟩, ?_⟩
    have := hF.inv.content i (by rw [hfs]; exact hm.sane.1 _ _ h1)
    rw [this, hfs]
    exact congrArg env.xxh h2
  · rw [hfs]
    simp [pruneFS, hrem, hd]

/-- C96: nothing outside node_modules is changed by an install in a project kept this way, at any moment. -/
theorem C96_outside_partial (ho : ∀ f, (env.ord f).Perm f) (hcol : Tar.NoCol env) {g0 g1 : Graph Str P S} {fs : Tar.FS} {rec0 : IMap Str (LNode V I)}
    (h : Kept env build pr pk v o fetch tar g0 fs rec0) (hn : Noticed pk v g0 g1 rec0) (hg : Goods env build pr pk v g1 o fetch tar (some rec0) fs)
    {sched : List Nat} (hord : ListOrder (jobsFor o g1 fetch) sched) {w : XRun} (hw : applyRun env build v g1 o fetch (some rec0) sched fs = some w)
    (p : Loc) (hout : ¬ o.root ++ [nmWord] <+: p) :
    w.runs.fs.files p = fs.files p ∧ (∀ c, Tar.Holds fs p c → ∃ c', Tar.Holds w.runs.fs p c' ∧ env.xxh c' = env.xxh c) ∧
    (fs.dirs p = true → w.runs.fs.dirs p = true) := by
  obtain ⟨h1, h2, _, h4⟩ := C96_kept ho hcol h
  obtain ⟨c, fs', hmk, hs, hh, hf⟩ := next_further h4 h1 h2 hn hg
  have hp := proper_prune (v := v) (g := g1) (root := o.root) (recorded := some rec0) h4.proper
  refine outside_of ho hcol hmk hs hh hf hp (fun q hq => ?_) h4 hord hw p hout
  by_contra hne
  have hroot : seen pr o.root fs [] = some .dir := (h2 [] not_inBin_nil .dir).2 (.inr ⟨rfl, .inl rfl⟩)
  have hd : fs.dirs (o.root ++ [nmWord]) = true := by
    unfold seen at hroot
    split at hroot
    · cases hroot
    · split at hroot
      · assumption
      · cases hroot
  have hne' : fs.files q ≠ none := by
    simp only [pruneFS] at hne
    split at hne
    · exact absurd rfl hne
    · exact hne
  have h5 := h4.proper.apart q hne'
  rw [h4.proper.closed _ hd q hq] at h5; cases h5

end Hoisted
end Oro
