import Verif.Proofs.FileLife
/-
Installs that are tried and interrupted (hoisted linker).
-/

set_option linter.unusedSectionVars false

namespace Oro
namespace Hoisted
variable {P S V I : Type} [DecidableEq S] [DecidableEq V] [DecidableEq I]
variable {env : Tar.Env} {build : Bytes → Option Bool} {pr : Bytes → Bytes} {pk : Pkgs P} {v : LockView P S V I} {o : XOpts}
  {fetch : P → Option Tar.Integrity × Option (List Tar.Ev)} {tar : P → Bytes}

/-- after pruning without a meta file, nothing is in node_modules -/
theorem wiped_prune {g : Graph Str P S} {fs : Tar.FS} (hp : Tar.Proper fs) {r : Loc} (hr : r ≠ []) :
    (pruneFS v g o.root none fs).taken (o.root ++ nmWord :: r) = false := by
  cases ht : fs.taken (o.root ++ nmWord :: r) with
  | false =>
    unfold Tar.FS.taken at ht ⊢
    rw [Bool.or_eq_false_iff] at ht
    simp only [pruneFS, ht.2, Bool.and_false, Bool.or_false]
    split
    · rfl
    · exact ht.1
  | true =>
    have hrem : removed v g o.root none fs (o.root ++ nmWord :: r) = true := by
      rw [removed_at]
      unfold prune
      rw [if_neg]
      · simp [wiped, hr]
      · intro hx
        change seen id o.root fs [] = none at hx
        rw [seen_taken] at hx
        rcases taken_up hp ht (q := o.root ++ nmWord :: []) ((List.prefix_append_right_inj _).2 (by simp)) with he | hd
        · simp at he; exact hr he
        · unfold Tar.FS.taken at hx; rw [hd] at hx; simp at hx
    unfold Tar.FS.taken
    simp [pruneFS, hrem]

/-- the first install -/
theorem first_further {g : Graph Str P S} {fs : Tar.FS} (hm : Machine env fs) (hno : ∀ q, q <+: o.root ++ [nmWord] → fs.files q = none)
    (hg : Goods env build pr pk v g o fetch tar none fs) :
    ∃ c fs', Tar.mkdirp [] (pruneFS v g o.root none fs) (o.root ++ [nmWord]) = some (c, fs') ∧ Tar.Sane fs' ∧ Tar.Honest env fs' ∧
      Further env build pr pk g o fetch tar fs' := by
  have hno' : ∀ q, q <+: o.root ++ [nmWord] → (pruneFS v g o.root none fs).files q = none := by
    intro q hq
    simp only [pruneFS, hno q hq]
    split <;> rfl
  obtain ⟨c, fs', hmk, hp, hd, rfl⟩ := mkdirp_modules (proper_prune (v := v) (g := g) (recorded := none) hm.proper) hno'
  have hempty : ∀ r : Loc, r ≠ [] → ({ pruneFS v g o.root none fs with
      dirs := fun q => (pruneFS v g o.root none fs).dirs q || (o.root ++ [nmWord]).inits.contains q } : Tar.FS).taken (o.root ++ nmWord :: r) = false := by
    intro r hr
    have h1 := wiped_prune (v := v) (g := g) (o := o) hm.proper hr
    unfold Tar.FS.taken at h1 ⊢
    rw [Bool.or_eq_false_iff] at h1
    simp only [h1.1, h1.2, Bool.false_or]
    by_contra hc
    rw [Bool.not_eq_false, List.contains_iff_mem, List.mem_inits] at hc
    rw [List.prefix_append_right_inj] at hc
    exact hr (by simpa using hc)
  have htgt : ∀ i nd, i ≠ 0 → g.nodes[i]? = some nd → targetDir g i ≠ [] := by
    intro i nd h0 hi
    obtain ⟨n, ρ, hloc, hin⟩ := located_cons hg.tree h0 hi
    have htf := target_folder hg.tree.tree (ord_of hg.tree) h0 hloc
    rw [folder_cons] at htf
    intro hx
    rw [hx] at htf
    simp only [List.cons.injEq, true_and] at htf
    exact segs_ne_nil hin.1 (List.append_eq_nil_iff.1 htf.symm).1
  refine ⟨c, _, hmk, ⟨fun p i h => hm.sane.1 p i ?_, hm.sane.2⟩, hm.honest, hg.tree, hp, hd, fun p hb e he => ?_, fun i nd h0 hi hs => ?_,
    fun i nd j h0 hi hj hs => ?_, hg.packed, hg.built, hg.sight, hg.reading⟩
  · simp only [pruneFS] at h
    split at h
    · cases h
    · exact h
  · by_cases hpn : p = []
    · subst hpn
      right
      unfold seen at he
      rw [show (pruneFS v g o.root none fs).files (o.root ++ [nmWord]) = none from hno' _ (List.prefix_refl _)] at he
      dsimp only at he hd
      rw [if_pos hd, Option.some.injEq] at he
      exact ⟨he.symm, .inl rfl⟩
    · rw [seen_taken.2 (hempty p hpn)] at he; cases he
  · exact absurd (seen_taken.2 (hempty _ (htgt i nd h0 hi))) hs
  · have hj' := job_dir hj
    have := hg.packages i nd j h0 hi hj (by rw [hj']; exact wiped_prune hm.proper (htgt i nd h0 hi))
    exact ⟨this.fits, this.complete, this.plain, this.sound, this.served, this.cached⟩

/-- after trying to install over `T`: what pruning leaves alone is as it was -/
structure Amidst (pr : Bytes → Bytes) (v : LockView P S V I) (g : Graph Str P S) (o : XOpts) (recorded : IMap Str (LNode V I)) (T : Tree) (fs : Tar.FS) : Prop where
  root : seen pr o.root fs [] = some .dir
  store : seen pr o.root fs [storeName] = none
  same : ∀ p, ¬ InBin p → survives v g recorded [] p = true → seen pr o.root fs p = T p

theorem Amidst.pruned {g : Graph Str P S} {fs : Tar.FS} {rec0 : IMap Str (LNode V I)} {T : Tree} (h : Amidst pr v g o rec0 T fs) {p : Loc} (hb : ¬ InBin p) :
    seen pr o.root (pruneFS v g o.root (some rec0) fs) p = prunedTree v g rec0 T p := by
  rw [seen_prune (by rw [h.root]; simp) h.store, prune_eq (d := ⟨seen pr o.root fs, some rec0⟩) (by simp [h.root]) h.store rfl]
  show prunedTree v g rec0 (seen pr o.root fs) p = _
  unfold prunedTree
  split
  · rename_i hs; exact h.same p hb hs
  · rfl

theorem dir_of_seen {fs : Tar.FS} {r p : Loc} (h : seen pr r fs p = some .dir) : fs.dirs (r ++ nmWord :: p) = true := by
  unfold seen at h
  split at h
  · cases h
  · split at h
    · assumption
    · cases h

/-- a further install, perhaps after it was interrupted -/
theorem amidst_modules {g : Graph Str P S} {fs : Tar.FS} {rec0 : IMap Str (LNode V I)} {T : Tree} (hm : Machine env fs) (hT : T [] = some .dir)
    (hA : Amidst pr v g o rec0 T fs) :
    ∃ c, Tar.mkdirp [] (pruneFS v g o.root (some rec0) fs) (o.root ++ [nmWord]) = some (c, pruneFS v g o.root (some rec0) fs) := by
  have hp := proper_prune (v := v) (g := g) (root := o.root) (recorded := some rec0) hm.proper
  have hd : (pruneFS v g o.root (some rec0) fs).dirs (o.root ++ [nmWord]) = true := by
    refine dir_of_seen (pr := pr) (p := []) ?_
    rw [hA.pruned not_inBin_nil]
    unfold prunedTree survives
    rw [if_pos rfl, hT]
  obtain ⟨c, fs', hmk, _, _, hfs⟩ := mkdirp_modules (root := o.root) hp (fun q hq => by
    by_contra hne
    have h1 := hp.apart q hne
    rw [hp.closed _ hd q hq] at h1; cases h1)
  refine ⟨c, ?_⟩
  have hsame : fs' = pruneFS v g o.root (some rec0) fs := by
    rw [hfs]
    have : (fun q => (pruneFS v g o.root (some rec0) fs).dirs q || (o.root ++ [nmWord]).inits.contains q) = (pruneFS v g o.root (some rec0) fs).dirs :=
      funext (inits_dirs hp hd)
    rw [this]
  rw [hmk, hsame]

theorem sane_prune {g : Graph Str P S} {fs : Tar.FS} {recorded : Option (IMap Str (LNode V I))} (h : Tar.Sane fs) : Tar.Sane (pruneFS v g o.root recorded fs) := by
  refine ⟨fun p i hx => h.1 p i ?_, h.2⟩
  simp only [pruneFS] at hx
  split at hx
  · cases hx
  · exact hx

theorem amidst_further {g0 g1 : Graph Str P S} {fs : Tar.FS} {rec0 : IMap Str (LNode V I)} {T : Tree} (hm : Machine env fs)
    (hP : Prev pk v g0 g1 rec0 T) (hA : Amidst pr v g1 o rec0 T fs) (hg : Goods env build pr pk v g1 o fetch tar (some rec0) fs) :
    ∃ c fs', Tar.mkdirp [] (pruneFS v g1 o.root (some rec0) fs) (o.root ++ [nmWord]) = some (c, fs') ∧ Tar.Sane fs' ∧ Tar.Honest env fs' ∧
      Further env build pr pk g1 o fetch tar fs' := by
  obtain ⟨c, hmk⟩ := amidst_modules (v := v) hm hP.root hA
  have hp := proper_prune (v := v) (g := g1) (root := o.root) (recorded := some rec0) hm.proper
  refine ⟨c, _, hmk, sane_prune hm.sane, hm.honest, ?_⟩
  refine C95_pruned (v := v) hP.old hg.tree ⟨T, some rec0⟩ rec0 hP.inst rfl hP.noticed hp (fun p hb => ?_) (fun i nd j hi0 hin hj hs => ?_)
    hg.packed hg.built hg.sight hg.reading
  · rw [hA.pruned hb, prune_eq (d := ⟨T, some rec0⟩) (by simp [hP.root]) hP.store rfl]
  · rw [seen_taken, ← job_dir hj] at hs
    have := hg.packages i nd j hi0 hin hj hs
    exact ⟨this.fits, this.complete, this.plain, this.sound, this.served, this.cached⟩

theorem amidst_start {g0 g1 : Graph Str P S} {fs : Tar.FS} {rec0 : IMap Str (LNode V I)} (hP : Prev pk v g0 g1 rec0 (seen pr o.root fs)) :
    Amidst pr v g1 o rec0 (seen pr o.root fs) fs := ⟨hP.root, hP.store, fun _ _ _ => rfl⟩

/-- a further one -/
theorem next_further {g0 g1 : Graph Str P S} {fs : Tar.FS} {rec0 : IMap Str (LNode V I)} (hm : Machine env fs) (h0 : Installable pk g0)
    (hi : Installed pk g0 (seen pr o.root fs)) (hn : Noticed pk v g0 g1 rec0) (hg : Goods env build pr pk v g1 o fetch tar (some rec0) fs) :
    ∃ c fs', Tar.mkdirp [] (pruneFS v g1 o.root (some rec0) fs) (o.root ++ [nmWord]) = some (c, fs') ∧ Tar.Sane fs' ∧ Tar.Honest env fs' ∧
      Further env build pr pk g1 o fetch tar fs' :=
  have hP : Prev pk v g0 g1 rec0 (seen pr o.root fs) := ⟨h0, hg.tree, hi, hn⟩
  amidst_further hm hP (amidst_start hP) hg

/-- an install that went well -/
theorem further_leaves (ho : ∀ f, (env.ord f).Perm f) (hcol : Tar.NoCol env) {g : Graph Str P S} {fs : Tar.FS} (hs : Tar.Sane fs) (hh : Tar.Honest env fs)
    (h : Further env build pr pk g o fetch tar fs) {sched : List Nat} (hord : ListOrder (jobsFor o g fetch) sched)
    (hov : Over g ((XRun.init fs).run env build (jobsFor o g fetch) sched)) :
    Installed pk g (seen pr o.root ((XRun.init fs).run env build (jobsFor o g fetch) sched).runs.fs) ∧
    Machine env ((XRun.init fs).run env build (jobsFor o g fetch) sched).runs.fs := by
  obtain ⟨h1, _, h3⟩ := C95_installed ho hcol hs hh h sched hord hov
  refine ⟨h1, ?_, ?_, h3⟩
  · rw [(furtherinv_run ho hcol hs hh h sched hord).runs]
    exact Tar.proper_run ho h.proper sched
  · rw [(furtherinv_run ho hcol hs hh h sched hord).runs]
    exact (Tar.fine_run ho hcol (further_ready h) sched _ (fine_further hs hh h)).inv.sane

/-- what is not on or below the folder of a package that is extracted looks as before, at every moment -/
theorem run_seen (ho : ∀ f, (env.ord f).Perm f) (hcol : Tar.NoCol env) {g : Graph Str P S} {fs : Tar.FS} (hs : Tar.Sane fs) (hh : Tar.Honest env fs)
    (h : Further env build pr pk g o fetch tar fs) (sched : List Nat) {p : Loc}
    (hp : ∀ n j, absent (jobsFor o g fetch) fs n = some j → ∀ l, ¬ p <+: targetDir g n ++ l) :
    seen pr o.root ((Tar.Runs.init fs).run env (absent (jobsFor o g fetch) fs) sched).fs p = seen pr o.root fs p := by
  have hR := further_ready h
  have hF := Tar.fine_run ho hcol hR sched _ (fine_further hs hh h)
  have hH := Tar.housed_run ho sched _ (Tar.housed_init (jobs := absent (jobsFor o g fetch) fs) fs)
  have hat : ∀ n j, absent (jobsFor o g fetch) fs n = some j → ∀ e ∈ (env.untar (tarFor g tar n)).1, e.regular = true →
      ∃ l, Tar.place j.dir e = o.root ++ nmWord :: (targetDir g n ++ l) := by
    intro n j hj e he hr
    obtain ⟨l, h1, _, _⟩ := (hR.place hj).names he hr
    exact ⟨l, by rw [h1, job_dir (absent_some.1 hj).1]; simp⟩
  have hfile : ((Tar.Runs.init fs).run env (absent (jobsFor o g fetch) fs) sched).fs.files (o.root ++ nmWord :: p) = fs.files (o.root ++ nmWord :: p) := by
    refine hF.inv.files _ fun n j hj e he hr hpl => ?_
    obtain ⟨l, hl⟩ := hat n j hj e he hr
    rw [hl] at hpl
    have := List.append_cancel_left hpl
    simp only [List.cons.injEq, true_and] at this
    exact hp n j hj l (by rw [this])
  have hdir : ((Tar.Runs.init fs).run env (absent (jobsFor o g fetch) fs) sched).fs.dirs (o.root ++ nmWord :: p) = fs.dirs (o.root ++ nmWord :: p) := by
    cases hd : fs.dirs (o.root ++ nmWord :: p) with
    | true => exact hH.up _ hd
    | false =>
      by_contra hc
      rw [Bool.not_eq_false] at hc
      rcases Tar.sprung_run ho hcol hR (fine_further hs hh h) sched _ hc with h1 | ⟨n, _, j, hj, h1 | ⟨e, he, hr, h1⟩⟩
      · rw [hd] at h1; cases h1
      · rw [job_dir (absent_some.1 hj).1, List.prefix_append_right_inj] at h1
        refine hp n j hj [] ?_
        simpa using h1
      · obtain ⟨l, hl⟩ := hat n j hj e he hr
        have h2 := h1.trans (List.dropLast_prefix _)
        rw [hl, List.prefix_append_right_inj] at h2
        exact hp n j hj l (by simpa using h2)
  unfold seen
  rw [hfile, hdir]
  cases hx : fs.files (o.root ++ nmWord :: p) with
  | none => rfl
  | some i =>
    dsimp only
    rw [h.sight _ _ (hF.inv.content i (hs.1 _ _ hx))]

theorem moment_machine (ho : ∀ f, (env.ord f).Perm f) (hcol : Tar.NoCol env) {g : Graph Str P S} {fs : Tar.FS} (hs : Tar.Sane fs) (hh : Tar.Honest env fs)
    (h : Further env build pr pk g o fetch tar fs) (sched : List Nat) :
    Machine env ((Tar.Runs.init fs).run env (absent (jobsFor o g fetch) fs) sched).fs := by
  have hF := Tar.fine_run ho hcol (further_ready h) sched _ (fine_further hs hh h)
  exact ⟨Tar.proper_run ho h.proper sched, hF.inv.sane, Tar.honest_strong trivial hF.inv.honest⟩

theorem not_inBin_store : ¬ InBin [storeName] := by
  rintro ⟨q, r, hq, _⟩
  cases q with
  | nil => simp only [List.nil_append, List.cons.injEq] at hq; exact absurd hq.1 (by decide)
  | cons a q => simp at hq

theorem not_top_store {n : Str} (h : InstName n) {y : Loc} : ¬ [storeName] <+: nameSegs n ++ y := by
  rintro ⟨z, hz⟩
  obtain ⟨hn, _, hs, _⟩ := h
  rcases hn with ⟨a1, _⟩ | ⟨s, t, rfl, a1, a2, _⟩
  · rw [nameSegs_plain a1] at hz
    simp only [List.cons_append, List.nil_append, List.cons.injEq] at hz
    exact hs hz.1.symm
  · rw [nameSegs_scoped a1 a2] at hz
    simp [storeName] at hz

/-- the invariant -/
theorem tried_amidst (ho : ∀ f, (env.ord f).Perm f) (hcol : Tar.NoCol env) {g0 g1 : Graph Str P S} {fs fs1 : Tar.FS} {rec0 : IMap Str (LNode V I)}
    (hm : Machine env fs) (hP : Prev pk v g0 g1 rec0 (seen pr o.root fs)) (ht : Tried env build pr pk v g1 o fetch tar rec0 fs fs1) :
    Machine env fs1 ∧ Amidst pr v g1 o rec0 (seen pr o.root fs) fs1 := by
  induction ht with
  | not => exact ⟨hm, amidst_start hP⟩
  | @pruning a b _ hb ih =>
    obtain ⟨hma, hA⟩ := ih
    have hkept : ∀ p, ¬ InBin p → survives v g1 rec0 [] p = true → seen pr o.root b p = seen pr o.root a p := by
      intro p hbin hsv
      by_cases hrem : removed v g1 o.root (some rec0) a (o.root ++ nmWord :: p) = true
      · rw [removed_at, prune_eq (d := ⟨seen id o.root a, some rec0⟩) ?_ ?_ rfl] at hrem
        · simp only [Option.isNone_iff_eq_none] at hrem
          unfold prunedTree at hrem
          rw [if_pos hsv, seen_taken (o := o)] at hrem
          unfold Tar.FS.taken at hrem
          rw [Bool.or_eq_false_iff] at hrem
          have h1 : a.files (o.root ++ nmWord :: p) = none := by simpa using hrem.1
          have h2 : b.files (o.root ++ nmWord :: p) = none := by
            rcases hb.files (o.root ++ nmWord :: p) with h | h
            · rw [h, h1]
            · exact h.2
          have h3 : b.dirs (o.root ++ nmWord :: p) = false := by
            rcases hb.dirs (o.root ++ nmWord :: p) with h | h
            · rw [h, hrem.2]
            · exact h.2
          unfold seen
          rw [h1, h2, h3, hrem.2]
        · intro hx
          rw [seen_taken (o := o), ← seen_taken (pr := pr), hA.root] at hx; cases hx
        · rw [seen_taken (o := o), ← seen_taken (pr := pr), hA.store]
      · unfold seen
        rcases hb.files (o.root ++ nmWord :: p) with h | h
        · rcases hb.dirs (o.root ++ nmWord :: p) with h' | h'
          · rw [h, h', hb.content]
          · exact absurd h'.1 hrem
        · exact absurd h.1 hrem
    refine ⟨⟨hb.proper, ⟨fun p i hx => ?_, fun h i hx => ?_⟩, fun k idx hx => hma.honest k idx (by rw [← hb.index]; exact hx)⟩, ?_, ?_, fun p h1 h2 => ?_⟩
    · rw [hb.next]
      rcases hb.files p with h | h
      · exact hma.sane.1 p i (by rw [← h]; exact hx)
      · rw [h.2] at hx; cases hx
    · rw [hb.next]; exact hma.sane.2 h i (by rw [← hb.store]; exact hx)
    · rw [hkept [] not_inBin_nil (by unfold survives; rfl)]; exact hA.root
    · have h1 := hA.store
      rw [seen_taken (o := o)] at h1 ⊢
      unfold Tar.FS.taken at h1 ⊢
      rw [Bool.or_eq_false_iff] at h1 ⊢
      constructor
      · rcases hb.files (o.root ++ [nmWord, storeName]) with h | h
        · rw [h]; exact h1.1
        · rw [h.2]; rfl
      · rcases hb.dirs (o.root ++ [nmWord, storeName]) with h | h
        · rw [h]; exact h1.2
        · exact h.2
    · rw [hkept p h1 h2]; exact hA.same p h1 h2
  | @moment a sched w _ hg hord hw ih =>
    obtain ⟨hma, hA⟩ := ih
    obtain ⟨c, hmk⟩ := amidst_modules (v := v) hma hP.root hA
    obtain ⟨c', fs', hmk', hs, hh, hf⟩ := amidst_further hma hP hA hg
    unfold applyRun at hw
    rw [hmk'] at hw
    cases hw
    rw [hmk] at hmk'
    cases hmk'
    dsimp only
    rw [(furtherinv_run ho hcol hs hh hf sched hord).runs]
    have hroot : seen pr o.root ((Tar.Runs.init (pruneFS v g1 o.root (some rec0) a)).run env
        (absent (jobsFor o g1 fetch) (pruneFS v g1 o.root (some rec0) a)) sched).fs [] = some .dir := by
      have hd : ((Tar.Runs.init (pruneFS v g1 o.root (some rec0) a)).run env (absent (jobsFor o g1 fetch) (pruneFS v g1 o.root (some rec0) a)) sched).fs.dirs
          (o.root ++ nmWord :: []) = true :=
        (Tar.housed_run ho sched _ (Tar.housed_init (jobs := absent (jobsFor o g1 fetch) (pruneFS v g1 o.root (some rec0) a)) _)).up _ hf.modules
      have hx : ((Tar.Runs.init (pruneFS v g1 o.root (some rec0) a)).run env (absent (jobsFor o g1 fetch) (pruneFS v g1 o.root (some rec0) a)) sched).fs.files
          (o.root ++ nmWord :: []) = none := by
        by_contra hc
        rw [(moment_machine ho hcol hs hh hf sched).proper.apart _ hc] at hd; cases hd
      unfold seen
      rw [hx, hd]; rfl
    refine ⟨moment_machine ho hcol hs hh hf sched, hroot, ?_, fun p hb hsv => ?_⟩
    · rw [run_seen ho hcol hs hh hf sched, hA.pruned not_inBin_store]
      · unfold prunedTree
        rw [hP.store]; simp
      · intro n j hj l hpre
        obtain ⟨h0, nd, hn, _, _⟩ := jobsFor_some (tar := tar) (absent_some.1 hj).1
        obtain ⟨nm, ρ, hloc, hin⟩ := located_cons hg.tree h0 hn
        have htf := target_folder hg.tree.tree (ord_of hg.tree) h0 hloc
        have hdir : targetDir g1 n = nameSegs nm ++ folder ρ := by rw [folder_cons] at htf; simpa using htf
        rw [hdir, List.append_assoc] at hpre
        exact not_top_store hin hpre
    · by_cases hpn : p = []
      · subst hpn
        rw [hroot]; exact hP.root.symm
      rw [run_seen ho hcol hs hh hf sched, hA.pruned hb]
      · unfold prunedTree
        rw [if_pos hsv]
      · intro n j hj l hpre
        obtain ⟨hj1, hj2⟩ := absent_some.1 hj
        obtain ⟨h0, nd, hn, _, _⟩ := jobsFor_some (tar := tar) hj1
        obtain ⟨nm, ρ, hloc, hin⟩ := located_cons hg.tree h0 hn
        have htf := target_folder hg.tree.tree (ord_of hg.tree) h0 hloc
        have hdir : targetDir g1 n = nameSegs nm ++ folder ρ := by rw [folder_cons] at htf; simpa using htf
        rw [hdir, List.append_assoc] at hpre
        have hcold := (survives_iff (v := v) (actual := rec0) hg.tree.tree hin hpn hpre).1 hsv
        refine hP.base.cold n nd h0 hn ?_ ?_
        · rintro ⟨_, nm', ρ', hloc', hhot⟩
          have h3 := ((locatedAt_iff hg.tree.tree (ord_of hg.tree)).1 hloc).2
          have h4 := ((locatedAt_iff hg.tree.tree (ord_of hg.tree)).1 hloc').2
          rw [h3] at h4
          cases h4
          exact hhot.2 hcold
        · rw [← hA.pruned (not_inBin_way (located_inst hg.tree hloc) (by rw [htf])), seen_taken, ← job_dir hj1]
          exact hj2
  | @other a b _ hmb hsame ih =>
    exact ⟨hmb, by rw [hsame _ not_inBin_nil]; exact ih.2.root, by rw [hsame _ not_inBin_store]; exact ih.2.store,
      fun p hb hs => by rw [hsame p hb]; exact ih.2.same p hb hs⟩

end Hoisted
end Oro
