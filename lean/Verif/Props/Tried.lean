import Verif.Props.FileLife
import Verif.Proofs.TarFiled
/-
C98: installs that were interrupted are repaired by installing again (hoisted linker).
-/

set_option linter.unusedSectionVars false

namespace Oro

theorem Tar.obtainable_gives {env : Tar.Env} {j j' : Tar.Job} {es t} {a b : Tar.FS} (hg : Tar.Gives env j' es a b) (h : Hoisted.Obtainable env j t a) :
    Hoisted.Obtainable env j t b := by
  refine ⟨h.fits, h.complete, h.plain, h.sound, ?_, fun i hi ce hc => ?_⟩
  · rcases h.served with h1 | ⟨hc, i, idx, h2, h3⟩
    · exact .inl h1
    · obtain ⟨idx', h4⟩ := hg.keeps i idx h3
      exact .inr ⟨hc, i, idx', h2, h4⟩
  · rcases hg.index i ce hc with h1 | h1
    · obtain ⟨idx, h2, h3⟩ := h.cached i hi ce h1
      exact ⟨idx, h2, fun kh hk => hg.stock _ (h3 kh hk)⟩
    · exact h1

/-- what can be had can be had at every moment of an install -/
theorem Tar.obtainable_run {env : Tar.Env} {jobs tar o} (ho : ∀ f, (env.ord f).Perm f) (hcol : Tar.NoCol env) (h : Tar.Ready env jobs tar o) (sched : List Nat)
    {j : Tar.Job} {t} (hF : Tar.Fine env jobs tar o (Tar.Runs.init o)) (hj : Hoisted.Obtainable env j t o) :
    Hoisted.Obtainable env j t ((Tar.Runs.init o).run env jobs sched).fs := by
  induction sched using List.reverseRecOn with
  | nil => exact hj
  | append_singleton l n ih =>
    rw [Tar.runs_snoc]
    have hF' := Tar.fine_run ho hcol h l _ hF
    generalize (Tar.Runs.init o).run env jobs l = w at ih hF' ⊢
    unfold Tar.Runs.step
    cases hn : jobs n with
    | none => exact ih
    | some jn => exact Tar.obtainable_gives (Tar.fine_gives ho hcol h hF' hn) ih

theorem Tar.obtainable_cache {env : Tar.Env} {j t} {a b : Tar.FS} (h : Hoisted.Obtainable env j t a) (h1 : b.content = a.content) (h2 : b.store = a.store)
    (h3 : b.index = a.index) : Hoisted.Obtainable env j t b := by
  refine ⟨h.fits, h.complete, h.plain, h.sound, ?_, fun i hi ce hc => ?_⟩
  · unfold Tar.Served
    rw [h3]; exact h.served
  · obtain ⟨idx, h4, h5⟩ := h.cached i hi ce (by rw [← h3]; exact hc)
    refine ⟨idx, h4, fun kh hk => ?_⟩
    rw [h1, h2]; exact h5 kh hk

namespace Hoisted
variable {P S V I : Type} [DecidableEq S] [DecidableEq V] [DecidableEq I]
variable {env : Tar.Env} {build : Bytes → Option Bool} {pr : Bytes → Bytes} {pk : Pkgs P} {v : LockView P S V I} {o : XOpts}
  {fetch : P → Option Tar.Integrity × Option (List Tar.Ev)} {tar : P → Bytes}

theorem goes_well (ho : ∀ f, (env.ord f).Perm f) (hcol : Tar.NoCol env) {g : Graph Str P S} {fs fs' : Tar.FS} {c} {recorded : Option (IMap Str (LNode V I))}
    (hmk : Tar.mkdirp [] (pruneFS v g o.root recorded fs) (o.root ++ [nmWord]) = some (c, fs')) (hs : Tar.Sane fs') (hh : Tar.Honest env fs')
    (hf : Further env build pr pk g o fetch tar fs') : GoesWell env build pr pk v g o fetch recorded fs := by
  have hap : ∀ sched, applyRun env build v g o fetch recorded sched fs = some ((XRun.init fs').run env build (jobsFor o g fetch) sched) :=
    fun m => by unfold applyRun; rw [hmk]; rfl
  refine ⟨fun sched => ⟨_, hap sched⟩, fun sched w hord hw i nd h0 hi => ?_, fun s hord hfair => (ends_kept ho hcol hmk hs hh hf s hord hfair).2,
    fun sched w hord hw hov => ?_⟩
  · rw [hap sched] at hw; cases hw
    exact (C95_no_failure ho hcol hs hh hf _ hord i nd h0 hi).1
  · rw [hap sched] at hw; cases hw
    exact further_leaves ho hcol hs hh hf hord hov

/-- files are in folders: what is above a folder is no file -/
theorem proper_above {fs : Tar.FS} (hp : Tar.Proper fs) {d : Loc} (hd : fs.dirs d = true) (q : Loc) (hq : q <+: d) : fs.files q = none := by
  by_contra hne
  have h1 := hp.apart q hne
  rw [hp.closed _ hd q hq] at h1; cases h1

/-- one interrupted first install -/
theorem first_moment (ho : ∀ f, (env.ord f).Perm f) (hcol : Tar.NoCol env) {g : Graph Str P S} {fs : Tar.FS} (hm : Machine env fs)
    (hno : ∀ q, q <+: o.root ++ [nmWord] → fs.files q = none) (hg : Goods env build pr pk v g o fetch tar none fs) {sched : List Nat}
    (hord : ListOrder (jobsFor o g fetch) sched) {w : XRun} (hw : applyRun env build v g o fetch none sched fs = some w) :
    Machine env w.runs.fs ∧ (∀ q, q <+: o.root ++ [nmWord] → w.runs.fs.files q = none) ∧ Goods env build pr pk v g o fetch tar none w.runs.fs := by
  obtain ⟨c, fs', hmk, hs, hh, hf⟩ := first_further hm hno hg
  unfold applyRun at hw
  rw [hmk] at hw
  cases hw
  dsimp only
  rw [(furtherinv_run ho hcol hs hh hf sched hord).runs]
  have hM := moment_machine ho hcol hs hh hf sched
  have hd := (Tar.housed_run ho sched _ (Tar.housed_init (jobs := absent (jobsFor o g fetch) fs') fs')).up _ hf.modules
  refine ⟨hM, proper_above hM.proper hd, hg.tree, fun i nd j h0 hi hj _ => ?_, hg.packed, hg.built, hg.sight, hg.reading⟩
  refine Tar.obtainable_run ho hcol (further_ready hf) sched (fine_further hs hh hf) ?_
  obtain ⟨d, rfl⟩ := Tar.mkdirp_eq hmk
  refine Tar.obtainable_cache (hg.packages i nd j h0 hi hj ?_) rfl rfl rfl
  rw [job_dir hj]
  exact wiped_prune hm.proper (target_ne_nil hg.tree h0 hi)

theorem partly_machine {g : Graph Str P S} {a b : Tar.FS} {recorded : Option (IMap Str (LNode V I))} (hm : Machine env a)
    (h : PartlyPruned v g o.root recorded a b) : Machine env b := by
  refine ⟨h.proper, ⟨fun p i hx => ?_, fun k i hx => ?_⟩, fun k idx hx => hm.honest k idx (by rw [← h.index]; exact hx)⟩
  · rw [h.next]
    rcases h.files p with h1 | h1
    · exact hm.sane.1 p i (by rw [← h1]; exact hx)
    · rw [h1.2] at hx; cases hx
  · rw [h.next]; exact hm.sane.2 k i (by rw [← h.store]; exact hx)

theorem anew_again (ho : ∀ f, (env.ord f).Perm f) (hcol : Tar.NoCol env) {g : Graph Str P S} {fs fs1 : Tar.FS} (hm : Machine env fs)
    (hno : ∀ q, q <+: o.root ++ [nmWord] → fs.files q = none) (hg : Goods env build pr pk v g o fetch tar none fs)
    (ht : TriedAnew env build v g o fetch fs fs1) :
    Machine env fs1 ∧ (∀ q, q <+: o.root ++ [nmWord] → fs1.files q = none) ∧ Goods env build pr pk v g o fetch tar none fs1 := by
  induction ht with
  | not => exact ⟨hm, hno, hg⟩
  | @pruning a b _ hb ih =>
    obtain ⟨h1, h2, h3⟩ := ih
    refine ⟨partly_machine h1 hb, fun q hq => ?_, h3.tree, fun i nd j h0 hi hj _ => ?_, h3.packed, h3.built, h3.sight, h3.reading⟩
    · rcases hb.files q with h | h
      · rw [h]; exact h2 q hq
      · exact h.2
    · refine Tar.obtainable_cache (h3.packages i nd j h0 hi hj ?_) hb.content hb.store hb.index
      rw [job_dir hj]
      exact wiped_prune h1.proper (target_ne_nil h3.tree h0 hi)
  | moment _ hord hw ih => exact first_moment ho hcol ih.1 ih.2.1 ih.2.2 hord hw

/-- C98: whenever a first install is interrupted, however often, installing again goes well: nothing fails, and what is in node_modules
at the end is what the tree asks for. -/
theorem C98_first (ho : ∀ f, (env.ord f).Perm f) (hcol : Tar.NoCol env) {g : Graph Str P S} {fs fs1 : Tar.FS} (hm : Machine env fs)
    (hno : ∀ q, q <+: o.root ++ [nmWord] → fs.files q = none) (hg : Goods env build pr pk v g o fetch tar none fs)
    (ht : TriedAnew env build v g o fetch fs fs1) : GoesWell env build pr pk v g o fetch none fs1 := by
  obtain ⟨h1, h2, h3⟩ := anew_again ho hcol hm hno hg ht
  obtain ⟨c, fs', hmk, hs, hh, hf⟩ := first_further h1 h2 h3
  exact goes_well ho hcol hmk hs hh hf

/-- C98: whenever a further install is interrupted, however often, installing the same tree again goes well (for changes that pruning
notices). -/
theorem C98_next_partial (ho : ∀ f, (env.ord f).Perm f) (hcol : Tar.NoCol env) {g0 g1 : Graph Str P S} {fs fs1 : Tar.FS} {rec0 : IMap Str (LNode V I)}
    (h : Kept env build pr pk v o fetch tar g0 fs rec0) (hn : Noticed pk v g0 g1 rec0) (ht : Tried env build pr pk v g1 o fetch tar rec0 fs fs1)
    (hg : Goods env build pr pk v g1 o fetch tar (some rec0) fs1) : GoesWell env build pr pk v g1 o fetch (some rec0) fs1 := by
  obtain ⟨h1, h2, _, h4⟩ := C96_kept ho hcol h
  have hP : Prev pk v g0 g1 rec0 (seen pr o.root fs) := ⟨h1, hg.tree, h2, hn⟩
  obtain ⟨hm, hA⟩ := tried_amidst ho hcol h4 hP ht
  obtain ⟨c, fs', hmk, hs, hh, hf⟩ := amidst_further hm hP hA hg
  exact goes_well ho hcol hmk hs hh hf

theorem amidst_goods {g1 : Graph Str P S} {a b : Tar.FS} {rec0 : IMap Str (LNode V I)} {T : Tree}
    (ha : Amidst pr v g1 o rec0 T a) (hb : Amidst pr v g1 o rec0 T b) (hg : Goods env build pr pk v g1 o fetch tar (some rec0) a)
    (hk : ∀ j t, Hoisted.Obtainable env j t a → Hoisted.Obtainable env j t b) : Goods env build pr pk v g1 o fetch tar (some rec0) b := by
  refine ⟨hg.tree, fun i nd j h0 hi hj hs => hk _ _ (hg.packages i nd j h0 hi hj ?_), hg.packed, hg.built, hg.sight, hg.reading⟩
  obtain ⟨π, hl⟩ := located_of hg.tree hi
  have htf := nm_target hg.tree h0 hl
  have hbin : ¬ InBin (targetDir g1 i) := not_inBin_way (located_inst hg.tree hl) (by rw [htf])
  rw [job_dir hj, ← seen_taken (pr := pr)] at hs ⊢
  rw [ha.pruned hbin, ← hb.pruned hbin]
  exact hs

/-- C98: an interrupted install takes nothing away from what the next one needs, so installing again needs nothing new. -/
theorem C98_goods_partial (ho : ∀ f, (env.ord f).Perm f) (hcol : Tar.NoCol env) {g0 g1 : Graph Str P S} {fs a : Tar.FS} {rec0 : IMap Str (LNode V I)}
    (h : Kept env build pr pk v o fetch tar g0 fs rec0) (hn : Noticed pk v g0 g1 rec0) (ht : Tried env build pr pk v g1 o fetch tar rec0 fs a)
    (hg : Goods env build pr pk v g1 o fetch tar (some rec0) a) :
    (∀ b, PartlyPruned v g1 o.root (some rec0) a b → Goods env build pr pk v g1 o fetch tar (some rec0) b) ∧
    ∀ sched w, ListOrder (jobsFor o g1 fetch) sched → applyRun env build v g1 o fetch (some rec0) sched a = some w →
      Goods env build pr pk v g1 o fetch tar (some rec0) w.runs.fs := by
  obtain ⟨h1, h2, _, h4⟩ := C96_kept ho hcol h
  have hP : Prev pk v g0 g1 rec0 (seen pr o.root fs) := ⟨h1, hg.tree, h2, hn⟩
  obtain ⟨hm, hA⟩ := tried_amidst ho hcol h4 hP ht
  refine ⟨fun b hb => ?_, fun sched w hord hw => ?_⟩
  · exact amidst_goods hA (tried_amidst ho hcol h4 hP (.pruning ht hb)).2 hg
      fun j t hx => Tar.obtainable_cache hx hb.content hb.store hb.index
  · refine amidst_goods hA (tried_amidst ho hcol h4 hP (.moment ht hg hord hw)).2 hg fun j t hx => ?_
    obtain ⟨c, fs', hmk, hs, hh, hf⟩ := amidst_further hm hP hA hg
    unfold applyRun at hw
    rw [hmk] at hw
    cases hw
    dsimp only
    rw [(furtherinv_run ho hcol hs hh hf sched hord).runs]
    refine Tar.obtainable_run ho hcol (further_ready hf) sched (fine_further hs hh hf) ?_
    obtain ⟨d, rfl⟩ := Tar.mkdirp_eq hmk
    exact Tar.obtainable_cache hx rfl rfl rfl

/-- C98: an install interrupted while the meta file is written: whatever can then be read from it, or if nothing can, installing the
same tree again goes well. -/
theorem C98_meta (ho : ∀ f, (env.ord f).Perm f) (hcol : Tar.NoCol env) {g : Graph Str P S} {fs : Tar.FS} {recorded : IMap Str (LNode V I)}
    (h : Kept env build pr pk v o fetch tar g fs recorded) (read : Option (IMap Str (LNode V I))) (hg : Goods env build pr pk v g o fetch tar read fs) :
    GoesWell env build pr pk v g o fetch read fs := by
  obtain ⟨h1, h2, _, h4⟩ := C96_kept ho hcol h
  cases read with
  | none =>
    have hroot : seen pr o.root fs [] = some .dir := (h2 [] not_inBin_nil .dir).2 (.inr ⟨rfl, .inl rfl⟩)
    obtain ⟨c, fs', hmk, hs, hh, hf⟩ := first_further h4 (proper_above h4.proper (dir_of_seen hroot)) hg
    exact goes_well ho hcol hmk hs hh hf
  | some r =>
    obtain ⟨c, fs', hmk, hs, hh, hf⟩ := next_further h4 h1 h2 noticed_refl hg
    exact goes_well ho hcol hmk hs hh hf

theorem clearedFS_machine {fs : Tar.FS} (hm : Machine env fs) : Machine env (clearedFS o.root fs) := by
  have hfile : ∀ {p}, (clearedFS o.root fs).files p ≠ none → ¬ o.root ++ [nmWord] <+: p ∧ fs.files p ≠ none := by
    intro p h
    simp only [clearedFS] at h
    split at h
    · exact absurd rfl h
    · rename_i hn; exact ⟨fun hx => hn (List.isPrefixOf_iff_prefix.2 hx), h⟩
  have hdir : ∀ {p}, (clearedFS o.root fs).dirs p = true → ¬ o.root ++ [nmWord] <+: p ∧ fs.dirs p = true := by
    intro p h
    simp only [clearedFS, Bool.and_eq_true, Bool.not_eq_true'] at h
    exact ⟨fun hx => by rw [List.isPrefixOf_iff_prefix.2 hx] at h; exact Bool.noConfusion h.1, h.2⟩
  have hmk : ∀ {p}, ¬ o.root ++ [nmWord] <+: p → fs.dirs p = true → (clearedFS o.root fs).dirs p = true := by
    intro p h1 h2
    simp only [clearedFS, Bool.and_eq_true, Bool.not_eq_true']
    refine ⟨?_, h2⟩
    by_contra hc
    exact h1 (List.isPrefixOf_iff_prefix.1 (by simpa using hc))
  refine ⟨⟨fun d hd q hq => ?_, fun p h => ?_, fun p h => ?_⟩, ⟨fun p i hx => ?_, hm.sane.2⟩, hm.honest⟩
  · obtain ⟨h1, h2⟩ := hdir hd
    exact hmk (fun hx => h1 (hx.trans hq)) (hm.proper.closed d h2 q hq)
  · obtain ⟨h1, h2⟩ := hfile h
    exact hmk (fun hx => h1 (hx.trans (List.dropLast_prefix _))) (hm.proper.housed p h2)
  · obtain ⟨h1, h2⟩ := hfile h
    simp [clearedFS, hm.proper.apart p h2]
  · have h1 := (hfile (p := p) (by rw [hx]; simp)).2
    refine hm.sane.1 p i ?_
    simp only [clearedFS] at hx
    split at hx
    · cases hx
    · exact hx

theorem clearedFS_further {g : Graph Str P S} {fs : Tar.FS} (hm : Machine env fs)
    (hno : ∀ q, q <+: o.root ++ [nmWord] → fs.files q = none) (hg : Goods env build pr pk v g o fetch tar none fs) :
    ∃ c fs', Tar.mkdirp [] (pruneFS v g o.root none (clearedFS o.root fs)) (o.root ++ [nmWord]) = some (c, fs') ∧ Tar.Sane fs' ∧ Tar.Honest env fs' ∧
      Further env build pr pk g o fetch tar fs' := by
  have hm' := clearedFS_machine (o := o) hm
  exact first_further hm' (fun q hq => by
    simp only [clearedFS]
    split
    · rfl
    · exact hno q hq) (show Goods env build pr pk v g o fetch tar none (clearedFS o.root fs) from
      ⟨hg.tree, fun i nd j h0 hi hj _ => Tar.obtainable_cache (hg.packages i nd j h0 hi hj (by
        rw [job_dir hj]; exact wiped_prune hm.proper (target_ne_nil hg.tree h0 hi))) rfl rfl rfl, hg.packed, hg.built, hg.sight, hg.reading⟩)

/-- C98: `reapply` goes well whatever state node_modules is in. -/
theorem C98_reapply (ho : ∀ f, (env.ord f).Perm f) (hcol : Tar.NoCol env) {g : Graph Str P S} {fs : Tar.FS} (hm : Machine env fs)
    (hno : ∀ q, q <+: o.root ++ [nmWord] → fs.files q = none) (hg : Goods env build pr pk v g o fetch tar none fs) :
    GoesWell env build pr pk v g o fetch none (clearedFS o.root fs) := by
  obtain ⟨c, fs', hmk, hs, hh, hf⟩ := clearedFS_further hm hno hg
  exact goes_well ho hcol hmk hs hh hf

/-- C98: and changes nothing outside node_modules, at any moment. -/
theorem C98_reapply_outside (ho : ∀ f, (env.ord f).Perm f) (hcol : Tar.NoCol env) {g : Graph Str P S} {fs : Tar.FS} (hm : Machine env fs)
    (hno : ∀ q, q <+: o.root ++ [nmWord] → fs.files q = none) (hg : Goods env build pr pk v g o fetch tar none fs)
    {sched : List Nat} (hord : ListOrder (jobsFor o g fetch) sched) {w : XRun}
    (hw : applyRun env build v g o fetch none sched (clearedFS o.root fs) = some w) (p : Loc) (hout : ¬ o.root ++ [nmWord] <+: p) :
    w.runs.fs.files p = fs.files p ∧ (∀ c, Tar.Holds fs p c → ∃ c', Tar.Holds w.runs.fs p c' ∧ env.xxh c' = env.xxh c) ∧
    (fs.dirs p = true → w.runs.fs.dirs p = true) := by
  obtain ⟨c, fs', hmk, hs, hh, hf⟩ := clearedFS_further hm hno hg
  have hm' := clearedFS_machine (o := o) hm
  have hnp : (o.root ++ [nmWord]).isPrefixOf p = false := by
    by_contra hc
    exact hout (List.isPrefixOf_iff_prefix.1 (by simpa using hc))
  have hfile : (clearedFS o.root fs).files p = fs.files p := by
    show (if _ then _ else _) = _
    rw [hnp]; rfl
  obtain ⟨h1, h2, h3⟩ := outside_of ho hcol hmk hs hh hf (proper_prune hm'.proper) (fun q hq => by
    simp only [pruneFS, clearedFS, hno q hq, ite_self]) hm' hord hw p hout
  refine ⟨h1.trans hfile, fun c hc => h2 c ?_, fun hd => h3 ?_⟩
  · obtain ⟨i, h4, h5⟩ := hc
    exact ⟨i, by rw [hfile]; exact h4, h5⟩
  · show (!_ && _) = true
    rw [hnp, hd]; rfl

/-- C98: but when a `reapply` was interrupted while it cleared node_modules, installing does not repair it: files of packages that were
removed are not put back, for the meta file may still be there and is believed. -/
theorem C98_cleared_fails (ho : ∀ f, (env.ord f).Perm f) (hcol : Tar.NoCol env) {g : Graph Str P S} {fs : Tar.FS} {recorded : IMap Str (LNode V I)}
    (h : Kept env build pr pk v o fetch tar g fs recorded) {p : Loc} (hb : ¬ InBin p) {c : Bytes} (hp : seen pr o.root fs p = some (.file c))
    (sched : List Nat) :
    ∃ w, applyRun env build v g o fetch (some recorded) sched { fs with files := fun q => if q = o.root ++ nmWord :: p then none else fs.files q } = some w ∧
      (∀ n, w.phase n = .waiting ∨ w.phase n = .skipped) ∧ seen pr o.root w.runs.fs p = none := by
  obtain ⟨hg, hi, hrec, hm⟩ := C96_kept ho hcol h
  have hP : Prev pk v g g recorded (seen pr o.root fs) := ⟨hg, hg, hi, noticed_refl⟩
  have hpd : fs.dirs (o.root ++ nmWord :: p) = false := by
    refine hm.proper.apart _ ?_
    intro hx
    unfold seen at hp
    rw [hx] at hp
    dsimp only at hp
    split at hp <;> cases hp
  generalize hfs : ({ fs with files := fun q => if q = o.root ++ nmWord :: p then none else fs.files q } : Tar.FS) = fs'
  have hgone : seen pr o.root fs' p = none := by
    rw [← hfs]
    unfold seen
    simp [hpd]
  have hsame : ∀ q, q ≠ p → seen pr o.root fs' q = seen pr o.root fs q := by
    intro q hq
    rw [← hfs]
    unfold seen
    simp [hq]
  have hp' : Tar.Proper fs' := by
    rw [← hfs]
    refine ⟨hm.proper.closed, fun q hq => hm.proper.housed q ?_, fun q hq => hm.proper.apart q ?_⟩ <;>
    · dsimp only at hq
      split at hq
      · exact absurd rfl hq
      · exact hq
  have hpn : p ≠ [] := by
    rintro rfl
    rw [hP.root] at hp; cases hp
  have hps : p ≠ [storeName] := by
    rintro rfl
    rw [hP.store] at hp; cases hp
  have hroot : seen pr o.root fs' [] = some .dir := by rw [hsame _ hpn.symm]; exact hP.root
  have hstore : seen pr o.root fs' [storeName] = none := by rw [hsame _ hps.symm]; exact hP.store
  have hall : ∀ q, ¬ InBin q → seen pr o.root fs q ≠ none → survives v g recorded [] q = true := by
    intro q hq hne
    have h1 := (C33_again pk v g hg ⟨seen pr o.root fs, some recorded⟩ hi hrec).1 q hq
    rw [prune_eq (d := ⟨seen pr o.root fs, some recorded⟩) (by simp [hP.root]) hP.store rfl] at h1
    change prunedTree v g recorded (seen pr o.root fs) q = seen pr o.root fs q at h1
    unfold prunedTree at h1
    split at h1
    · assumption
    · exact absurd h1.symm hne
  have hA : Amidst pr v g o recorded (seen pr o.root fs') fs' := ⟨hroot, hstore, fun _ _ _ => rfl⟩
  have hpr : ∀ q, ¬ InBin q → seen pr o.root (pruneFS v g o.root (some recorded) fs') q = seen pr o.root fs' q := by
    intro q hq
    rw [hA.pruned hq]
    unfold prunedTree
    split
    · rfl
    · rename_i hns
      by_contra hc
      by_cases he : q = p
      · subst he; exact hc hgone.symm
      · rw [hsame q he] at hc
        exact hns (hall q hq (fun hx => hc hx.symm))
  have hm' : ∃ c, Tar.mkdirp [] (pruneFS v g o.root (some recorded) fs') (o.root ++ [nmWord]) = some (c, pruneFS v g o.root (some recorded) fs') := by
    refine amidst_modules (env := env) (v := v) ⟨hp', ⟨fun q i hx => ?_, ?_⟩, ?_⟩ hroot hA
    · rw [← hfs] at hx ⊢
      dsimp only at hx
      split at hx
      · cases hx
      · exact hm.sane.1 q i hx
    · rw [← hfs]; exact hm.sane.2
    · rw [← hfs]; exact hm.honest
  obtain ⟨c', hmk⟩ := hm'
  have htk : ∀ n j, jobsFor o g fetch n = some j → (pruneFS v g o.root (some recorded) fs').taken j.dir = true := by
    intro n j hj
    obtain ⟨h0, nd, hn, _, hdir⟩ := jobsFor_some (tar := tar) hj
    obtain ⟨π, hl⟩ := located_of hg hn
    have htf := nm_target hg h0 hl
    have hbn : ¬ InBin (targetDir g n) := not_inBin_way (located_inst hg hl) (by rw [htf])
    have hthere : seen pr o.root fs (targetDir g n) = some .dir :=
      (hi _ hbn .dir).2 (.inl ⟨n, nd, π, [], h0, hn, hl, by rw [htf]; simp, hg.dirs n nd h0 hn⟩)
    by_contra hc
    rw [Bool.not_eq_true, hdir, ← seen_taken (pr := pr), hpr _ hbn, hsame _ (by rintro rfl; rw [hthere] at hp; cases hp), hthere] at hc
    cases hc
  obtain ⟨hA', hB⟩ := all_taken (env := env) (build := build) htk sched
  refine ⟨(XRun.init _).run env build (jobsFor o g fetch) sched, by unfold applyRun; rw [hmk]; rfl, hB, ?_⟩
  rw [hA']
  show seen pr o.root (pruneFS v g o.root (some recorded) fs') p = none
  rw [hpr p hb]; exact hgone

end Hoisted
end Oro
