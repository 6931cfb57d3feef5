import Verif.Proofs.TarPrivate
import Verif.Props.InstallRun
import Verif.Props.InstallRunEx
import Verif.Props.StoreRun
import Verif.Props.StoreRunEx
/-
C94: whose files the installed files are.
-/

set_option linter.unusedSectionVars false

namespace Oro
namespace Tar

/-- Whatever is extracted at the same time, and whatever happens: if no extraction may make hard links (or there is no cache), then at
every moment every file that was not there before is private: changing it in place changes no other file and nothing in the cache. -/
theorem C94_private (env : Env) (jobs : Nat → Option Job) (fs : FS) (hs : Sane fs)
    (hm : ∀ n j, jobs n = some j → j.cache = true → j.mode = .copy ∨ j.mode = .reflink ∨ j.mode = .auto) (sched : List Nat) (p : Loc)
    (hp : fs.files p = none) : Private ((Runs.init fs).run env jobs sched).fs p := by
  have h := softinv_run (env := env) sched _ (softinv_init (jobs := jobs) hs fun n j hj hc => by
    rcases hm n j hj hc with h | h | h <;> rw [h] <;> rfl)
  cases hx : ((Runs.init fs).run env jobs sched).fs.files p with
  | none =>
    refine Alone.private fun i hi => ?_
    rw [hx] at hi; cases hi
  | some i =>
    rcases h.files p i hx with h | h
    · rw [hp] at h; cases h
    · exact h.private

/-- Whatever is extracted at the same time, in whatever mode: the files of a package with install scripts that has been extracted are
private – except its package.json (`C26_fails`). -/
theorem C94_scripts_partial (env : Env) (ho : ∀ f, (env.ord f).Perm f) (hcol : NoCol env) (fs : FS) (hs : Sane fs) (hh : Honest env fs)
    (jobs : Nat → Option Job) (tar : Nat → Bytes) (ha : Separate env jobs tar) (hv : AllVacant jobs fs) (sched : List Nat) (n : Nat) (j : Job)
    (hj : jobs n = some j) (hsc : HasScripts env (env.untar (tar n)).1) (i : Integrity)
    (hd : ((Runs.init fs).run env jobs sched).pcs n = .done i) (e : Entry) (he : e ∈ (env.untar (tar n)).1) (hr : e.regular = true)
    (hpj : (RPath.components e.header).tail ≠ [.normal kPackageJson]) :
    Private ((Runs.init fs).run env jobs sched).fs (place j.dir e) := by
  have h0 : Guarded j (env.untar (tar n)).1 ((Runs.init fs).pcs n) (Runs.init fs).fs := by
    refine ⟨trivial, fun e he hr _ i hi => ?_⟩
    rw [show (Runs.init fs).fs.files = fs.files from rfl, hv n j hj _ (place_inside (plain_contained (ha.plain n j hj)) he hr)] at hi
    cases hi
  have h := guarded_run ho hcol ha hj hsc sched _ (inv_init hs (honest_weak hh) ha hv) h0
  rw [hd] at h
  exact (h.2 e he hr hpj).private

end Tar

namespace Hoisted
variable {P S : Type}

/-- the options with which no hard links are made: there is no cache, `--prefer-copy`, or a file system that has reflinks or has no
hard links -/
def Copying (o : XOpts) : Prop := o.cache = false ∨ o.preferCopy = true ∨ o.reflinks = true ∨ o.hardlinks = false

theorem mode_copying {o : XOpts} (h : Copying o) (hc : o.cache = true) : o.mode = .copy ∨ o.mode = .reflink ∨ o.mode = .auto := by
  unfold XOpts.mode
  rw [if_pos hc]
  split
  · exact .inr (.inl rfl)
  · split
    · exact .inl rfl
    · split
      · rename_i h1 h2 h3
        rcases h with h | h | h | h
        · rw [hc] at h; cases h
        · exact absurd h h2
        · exact absurd h h1
        · rw [h] at h3; cases h3
      · exact .inl rfl

/-- With `--prefer-copy`, with reflinks, or without a cache: at every moment of every installation by the hoisted linker (of any
tree, however it goes), every file that was not there before is private. -/
theorem C94_hoisted (env : Tar.Env) (build : Bytes → Option Bool) (o : XOpts) (h : Copying o) (g : Graph Str P S)
    (fetch : P → Option Tar.Integrity × Option (List Tar.Ev)) (fs : Tar.FS) (hs : Tar.Sane fs) (sched : List Nat) (p : Loc)
    (hp : fs.files p = none) : Tar.Private ((XRun.init fs).run env build (jobsFor o g fetch) sched).runs.fs p := by
  have hsoft : Tar.SoftInv (jobsFor o g fetch) fs ((XRun.init fs).run env build (jobsFor o g fetch) sched).runs := by
    induction sched using List.reverseRecOn with
    | nil =>
      refine Tar.softinv_init hs fun n j hj hc => ?_
      unfold jobsFor at hj
      split at hj
      · cases hj
      · obtain ⟨nd, _, rfl⟩ := Option.map_eq_some_iff.1 hj
        rcases mode_copying h hc with h | h | h <;> (show o.mode.isCopy = true) <;> rw [h] <;> rfl
    | append_singleton l n ih =>
      rw [xrun_snoc]
      unfold XRun.step
      repeat' split
      all_goals first | exact ih | exact Tar.softinv_step ih n
  cases hx : ((XRun.init fs).run env build (jobsFor o g fetch) sched).runs.fs.files p with
  | none =>
    refine Tar.Alone.private fun i hi => ?_
    rw [hx] at hi; cases hi
  | some i =>
    rcases hsoft.files p i hx with h | h
    · rw [hp] at h; cases h
    · exact h.private

/-- The files of a package with install scripts are private after a first installation in any mode, except its package.json: its
scripts cannot change the cache or another package's files by changing its own. -/
theorem C94_hoisted_scripts_partial [DecidableEq S] {env : Tar.Env} {build : Bytes → Option Bool} {pr : Bytes → Bytes} {pk : Pkgs P} {g : Graph Str P S}
    {o : XOpts} {fetch : P → Option Tar.Integrity × Option (List Tar.Ev)} {tar : P → Bytes} {fs : Tar.FS}
    (ho : ∀ f, (env.ord f).Perm f) (hcol : Tar.NoCol env) (hs : Tar.Sane fs) (hh : Tar.Honest env fs)
    (h : Start env build pr pk g o fetch tar fs) (sched : List Nat) (hord : ListOrder (jobsFor o g fetch) sched) (n : Nat) (nd : Node Str P S)
    (j : Tar.Job) (hn : g.nodes[n]? = some nd) (hj : jobsFor o g fetch n = some j) (hsc : Tar.HasScripts env (env.untar (tar nd.pkg)).1) (b : Bool)
    (hd : ((XRun.init fs).run env build (jobsFor o g fetch) sched).phase n = .extracted b) (e : Tar.Entry)
    (he : e ∈ (env.untar (tar nd.pkg)).1) (hr : e.regular = true)
    (hpj : (RPath.components e.header).tail ≠ [.normal Tar.kPackageJson]) :
    Tar.Private ((XRun.init fs).run env build (jobsFor o g fetch) sched).runs.fs (Tar.place j.dir e) := by
  have hx := runinv_run ho hcol hs hh h sched hord
  have hjs : (jobsFor o g fetch n).isSome := by rw [hj]; rfl
  have ht : tarFor g tar n = tar nd.pkg := by unfold tarFor; rw [hn]
  have hin : n ∈ sched := by
    by_contra hin
    rw [hx.waiting n hjs hin] at hd; cases hd
  rcases hx.begun n hjs hin with hp | ⟨_, i, hp⟩
  · rw [hp] at hd; cases hd
  · rw [hx.runs] at hp ⊢
    exact Tar.C94_scripts_partial env ho hcol fs hs hh _ (tarFor g tar) (ready_of h).separate (ready_of h).files sched n j hj
      (by rw [ht]; exact hsc) i hp e (by rw [ht]; exact he) hr hpj

/-- Otherwise, where the file system has hard links, this is false: changing a file of an installed package changes what the cache
holds. -/
theorem C94_hardlink_fails : ¬ Copying ExI.o ∧ Start ExT.env ExI.build id ExI.pk ExI.g ExI.o ExI.fetch (fun b => [b]) ExI.fs ∧
    ExI.fs.files (ExI.o.root ++ [nmWord, ['a'], ['a']]) = none ∧
    ¬ Tar.Private ((XRun.init ExI.fs).run ExT.env ExI.build (jobsFor ExI.o ExI.g ExI.fetch) ((List.range 200).map ExI.s)).runs.fs
      (ExI.o.root ++ [nmWord, ['a'], ['a']]) := by
  refine ⟨by unfold Copying; decide, ExI.start, rfl, fun h => ?_⟩
  have := (h [99]).2 (ExT.str [10])
  revert this
  decide +kernel

end Hoisted

namespace Iso
open Hoisted (Bytes XOpts Pkgs Copying tarFor)
variable {P S : Type}

/-- an installation by the isolated linker that makes no hard links -/
theorem soft_step {env : Tar.Env} {build : Bytes → Option (Bool × Bool)} {o : XOpts} {v : Env} {g : Graph Str P S}
    {fetch : P → Option Tar.Integrity × Option (List Tar.Ev)} {fs : Tar.FS} {w : LRun} (n : Nat) (h : Tar.SoftInv (jobsFor o v g fetch) fs w.runs) :
    Tar.SoftInv (jobsFor o v g fetch) fs (w.step env build o v g fetch n).runs := by
  unfold LRun.step
  repeat' split
  all_goals
    first
      | exact h
      | exact Tar.softinv_step h n
      | skip
  rename_i hm
  obtain ⟨ht, hf⟩ := Tar.traces_mkdirp h.sane hm
  exact ⟨ht.sane, h.soft, Tar.alone_copies h.sane ht (Tar.copies_same hf) h.files⟩

/-- The same with the isolated linker. -/
theorem C94_isolated (env : Tar.Env) (build : Bytes → Option (Bool × Bool)) (o : XOpts) (h : Copying o) (v : Env) (g : Graph Str P S)
    (fetch : P → Option Tar.Integrity × Option (List Tar.Ev)) (fs : Tar.FS) (hs : Tar.Sane fs) (sched : List Nat) (p : Loc)
    (hp : fs.files p = none) : Tar.Private ((LRun.init o fs).run env build o v g fetch sched).runs.fs p := by
  have hsoft : Tar.SoftInv (jobsFor o v g fetch) fs ((LRun.init o fs).run env build o v g fetch sched).runs := by
    induction sched using List.reverseRecOn with
    | nil =>
      refine Tar.softinv_init hs fun n j hj hc => ?_
      unfold jobsFor at hj
      split at hj
      · cases hj
      · obtain ⟨nd, _, rfl⟩ := Option.map_eq_some_iff.1 hj
        rcases Hoisted.mode_copying h hc with h | h | h <;> (show o.mode.isCopy = true) <;> rw [h] <;> rfl
    | append_singleton l n ih =>
      rw [show ((LRun.init o fs).run env build o v g fetch (l ++ [n])) = ((LRun.init o fs).run env build o v g fetch l).step env build o v g fetch n by
        simp [LRun.run]]
      exact soft_step n ih
  cases hx : ((LRun.init o fs).run env build o v g fetch sched).runs.fs.files p with
  | none =>
    refine Tar.Alone.private fun i hi => ?_
    rw [hx] at hi; cases hi
  | some i =>
    rcases hsoft.files p i hx with h | h
    · rw [hp] at h; cases h
    · exact h.private

theorem guarded_lstep [DecidableEq S] {env : Tar.Env} {build : Bytes → Option (Bool × Bool)} {pr : Bytes → Bytes} {pk : Pkgs P} {v : Env} {g : Graph Str P S}
    {o : XOpts} {fetch : P → Option Tar.Integrity × Option (List Tar.Ev)} {tar : P → Bytes} {fs : Tar.FS} {w : LRun}
    (ho : ∀ f, (env.ord f).Perm f) (hcol : Tar.NoCol env) (h : Start env build pr pk v g o fetch tar fs)
    (hI : LInv env pk v g o fetch tar fs w) {n : Nat} {j : Tar.Job} (hj : jobsFor o v g fetch n = some j)
    (hsc : Tar.HasScripts env (env.untar (tarFor g tar n)).1) (m : Nat)
    (hg : Tar.Guarded j (env.untar (tarFor g tar n)).1 (w.runs.pcs n) w.runs.fs) :
    Tar.Guarded j (env.untar (tarFor g tar n)).1 ((w.step env build o v g fetch m).runs.pcs n) (w.step env build o v g fetch m).runs.fs := by
  unfold LRun.step
  repeat' split
  all_goals
    first
      | exact hg
      | exact Tar.guarded_one ho hcol (ready_of h).separate hj hsc m hI.fine.inv hg
      | skip
  rename_i hm
  obtain ⟨ht, hf⟩ := Tar.traces_mkdirp hI.fine.inv.sane hm
  exact Tar.guarded_other hI.fine.inv.sane ht (fun e _ _ => by rw [hf]) hg

/-- The same with the isolated linker. -/
theorem C94_isolated_scripts_partial [DecidableEq S] {env : Tar.Env} {build : Bytes → Option (Bool × Bool)} {pr : Bytes → Bytes} {pk : Pkgs P} {v : Env}
    {g : Graph Str P S} {o : XOpts} {fetch : P → Option Tar.Integrity × Option (List Tar.Ev)} {tar : P → Bytes} {fs : Tar.FS}
    (ho : ∀ f, (env.ord f).Perm f) (hcol : Tar.NoCol env) (hs : Tar.Sane fs) (hh : Tar.Honest env fs)
    (h : Start env build pr pk v g o fetch tar fs) (sched : List Nat) (n : Nat) (nd : Node Str P S)
    (j : Tar.Job) (hn : g.nodes[n]? = some nd) (hj : jobsFor o v g fetch n = some j) (hsc : Tar.HasScripts env (env.untar (tar nd.pkg)).1)
    (x : Option (Bool × Bool)) (hd : ((LRun.init o fs).run env build o v g fetch sched).phase n = .finished x) (e : Tar.Entry)
    (he : e ∈ (env.untar (tar nd.pkg)).1) (hr : e.regular = true)
    (hpj : (RPath.components e.header).tail ≠ [.normal Tar.kPackageJson]) :
    Tar.Private ((LRun.init o fs).run env build o v g fetch sched).runs.fs (Tar.place j.dir e) := by
  have ht : tarFor g tar n = tar nd.pkg := by unfold tarFor; rw [hn]
  have hR := ready_of h
  obtain ⟨hp, _, _⟩ := jobsFor_some (tar := tar) hj
  have hI := linv_run ho hcol h (linv_init hs hh h) sched
  have h0 : Tar.Guarded j (env.untar (tarFor g tar n)).1 ((LRun.init o fs).runs.pcs n) (LRun.init o fs).runs.fs := by
    refine ⟨trivial, fun e he hr _ i hi => ?_⟩
    rw [show (LRun.init o fs).runs.fs.files = fs.files from rfl,
      hR.files n j hj _ (Tar.place_inside (Tar.plain_contained (hR.plain n j hj)) he hr)] at hi
    cases hi
  have hg : Tar.Guarded j (env.untar (tarFor g tar n)).1 (((LRun.init o fs).run env build o v g fetch sched).runs.pcs n)
      ((LRun.init o fs).run env build o v g fetch sched).runs.fs := by
    clear hd hI
    induction sched using List.reverseRecOn with
    | nil => exact h0
    | append_singleton l m ih =>
      rw [lrun_snoc]
      exact guarded_lstep ho hcol h (linv_run ho hcol h (linv_init hs hh h) l) hj (by rw [ht]; exact hsc) m ih
  have hph := hI.phase n (lt_of_pkg hp)
  rw [hd] at hph
  rcases hph with ⟨h1, _⟩ | ⟨_, _, i, hpc⟩
  · exact absurd h1 hp.1
  · rw [hpc, ht] at hg
    exact (hg.2 e he hr hpj).private

end Iso

/-! ### examples -/

/-- package 1 has an install script, and there are hard links -/
example : Tar.HasScripts ExT.env (ExT.env.untar [1]).1 :=
  ⟨ExT.f ExT.pj [7], by decide, rfl, by decide +kernel, ⟨true, []⟩, rfl, rfl⟩

/-- node 3 of the tree of `Props/InstallRunEx.lean` is that package; hard links are used; its file `a` is private -/
example : Tar.Private ((Hoisted.XRun.init Hoisted.ExI.fs).run ExT.env Hoisted.ExI.build (Hoisted.jobsFor Hoisted.ExI.o Hoisted.ExI.g Hoisted.ExI.fetch)
      ((List.range 200).map Hoisted.ExI.s)).runs.fs
    (Tar.place (Hoisted.ExI.o.root ++ nmWord :: Hoisted.targetDir Hoisted.ExI.g 3) (ExT.f ExT.pa [10])) :=
  Hoisted.C94_hoisted_scripts_partial ExT.ord_perm Hoisted.ExI.noCol Hoisted.ExI.fs_sane Hoisted.ExI.fs_honest Hoisted.ExI.start _
    (Hoisted.ExI.turns 200) 3 _ _ rfl rfl ⟨ExT.f ExT.pj [7], by decide, rfl, by decide +kernel, ⟨true, []⟩, rfl, rfl⟩ true
    (by decide +kernel) (ExT.f ExT.pa [10]) (by decide) rfl (by decide +kernel)

/-- with `--prefer-copy` the same files as in `C94_hardlink_fails` are private -/
example (c : Hoisted.Bytes) (h : Str) :
    ((((Hoisted.XRun.init Hoisted.ExI.fs).run ExT.env Hoisted.ExI.build (Hoisted.jobsFor { Hoisted.ExI.o with preferCopy := true } Hoisted.ExI.g Hoisted.ExI.fetch)
      ((List.range 200).map Hoisted.ExI.s)).runs.fs.edit (Hoisted.ExI.o.root ++ [nmWord, ['a'], ['a']]) c).cached h) =
    ((Hoisted.XRun.init Hoisted.ExI.fs).run ExT.env Hoisted.ExI.build (Hoisted.jobsFor { Hoisted.ExI.o with preferCopy := true } Hoisted.ExI.g Hoisted.ExI.fetch)
      ((List.range 200).map Hoisted.ExI.s)).runs.fs.cached h :=
  (Hoisted.C94_hoisted ExT.env Hoisted.ExI.build _ (.inr (.inl rfl)) Hoisted.ExI.g Hoisted.ExI.fetch Hoisted.ExI.fs Hoisted.ExI.fs_sane _ _ rfl c).2 h

/-- and there: it was extracted -/
example : (((Hoisted.XRun.init Hoisted.ExI.fs).run ExT.env Hoisted.ExI.build
    (Hoisted.jobsFor { Hoisted.ExI.o with preferCopy := true } Hoisted.ExI.g Hoisted.ExI.fetch)
    ((List.range 200).map Hoisted.ExI.s)).runs.fs.read (Hoisted.ExI.o.root ++ [nmWord, ['a'], ['a']])) = some [10] := by decide +kernel

end Oro
