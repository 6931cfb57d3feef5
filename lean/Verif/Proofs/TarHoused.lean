import Verif.Proofs.TarFine
/-
Extractions, whatever they are: folders stay, what is in a folder is in folders, and new files are in folders.
-/

set_option linter.unusedSectionVars false

namespace Oro
namespace Tar

/-- what is in a folder's folder is in a folder -/
def DirsClosed (fs : FS) : Prop := ∀ d, fs.dirs d = true → ∀ q, q <+: d → fs.dirs q = true

theorem prefix_dropLast {α} {q p : List α} (h : q <+: p) (hne : q ≠ p) : q <+: p.dropLast := by
  obtain ⟨r, rfl⟩ := h
  have hr : r ≠ [] := fun h => hne (by simp [h])
  rw [List.dropLast_append_of_ne_nil hr]
  exact List.prefix_append _ _

theorem mkdirp_houses {c : List Loc} {fs : FS} {p : Loc} {c' fs'} (h : mkdirp c fs p = some (c', fs')) (hc : ∀ d ∈ c, fs.dirs d = true) :
    (∀ d, fs.dirs d = true → fs'.dirs d = true) ∧ fs'.dirs p = true ∧ (∀ d ∈ c', fs'.dirs d = true) ∧ fs'.files = fs.files ∧
    (DirsClosed fs → DirsClosed fs') := by
  unfold mkdirp at h
  split at h
  · rename_i hp
    cases h
    exact ⟨fun _ h => h, hc _ (List.contains_iff_mem.1 hp), hc, rfl, fun h => h⟩
  · split at h
    · simp only [Option.map_eq_some_iff, Prod.mk.injEq] at h
      obtain ⟨a, ha, rfl, rfl⟩ := h
      unfold createDir at ha
      split at ha
      · cases ha
      · rename_i hx
        cases ha
        have hpar : fs.dirs p.dropLast = true := by
          cases hy : fs.dirs p.dropLast with
          | true => rfl
          | false => exact absurd (by rw [hy]; simp) hx
        have up : ∀ d, fs.dirs d = true → upd fs.dirs p true d = true := fun d hd => by
          simp only [upd]; split
          · rfl
          · exact hd
        refine ⟨up, by simp [upd], fun d hd => ?_, rfl, fun hcl d hd q hq => ?_⟩
        · rcases List.mem_cons.1 hd with rfl | hd
          · simp [upd]
          · exact up d (hc d hd)
        · simp only [upd] at hd
          split at hd
          · rename_i hdp
            subst hdp
            by_cases hqd : q = d
            · simp [upd, hqd]
            · exact up q (hcl _ hpar q (prefix_dropLast hq hqd))
          · exact up q (hcl d hd q hq)
    · simp only [Option.map_eq_some_iff, Prod.mk.injEq] at h
      obtain ⟨a, ha, rfl, rfl⟩ := h
      unfold createDirAll at ha
      split at ha
      · cases ha
      · cases ha
        refine ⟨fun d hd => by simp [hd], by simp, fun d hd => ?_, rfl, fun hcl d hd q hq => ?_⟩
        · rcases List.mem_append.1 hd with hd | hd
          · simp only [Bool.or_eq_true, List.contains_iff_mem]; exact .inr hd
          · simp [hc d hd]
        · simp only [Bool.or_eq_true, List.contains_iff_mem, List.mem_inits] at hd ⊢
          rcases hd with hd | hd
          · exact .inl (hcl d hd q hq)
          · exact .inr (hq.trans hd)

/-- the folders of some files are there -/
def HousedFiles (dir : Loc) (l : Files) (fs : FS) : Prop := ∀ kh ∈ l, fs.dirs (RPath.goTo dir kh.1).dropLast = true

/-- the folders known to exist do, and so do those of the files extracted so far -/
def HousedBook (dir : Loc) (s : Book) (fs : FS) : Prop := (∀ d ∈ s.created, fs.dirs d = true) ∧ HousedFiles dir s.idx.files fs

/-- what is known of folders where an extraction stands -/
def HousedPC (j : Job) (pc : PC) (fs : FS) : Prop :=
  match pc with
  | .linkDir _ _ created => ∀ d ∈ created, fs.dirs d = true
  | .link _ k _ _ created => (∀ d ∈ created, fs.dirs d = true) ∧ fs.dirs (RPath.goTo j.dir k).dropLast = true
  | .entry _ _ _ s => HousedBook j.dir s fs
  | .plain _ e _ s | .commit _ e _ s | .write _ e _ s | .manifest _ e _ s =>
    HousedBook j.dir s fs ∧ fs.dirs (RPath.goTo j.dir (subpath e)).dropLast = true
  | .redo _ e _ s _ l => HousedBook j.dir s fs ∧ fs.dirs (RPath.goTo j.dir (subpath e)).dropLast = true ∧ HousedFiles j.dir l fs
  | .redone _ e _ s _ k _ l => HousedBook j.dir s fs ∧ fs.dirs (RPath.goTo j.dir (subpath e)).dropLast = true ∧
      HousedFiles j.dir l fs ∧ fs.dirs (RPath.goTo j.dir k).dropLast = true
  | _ => True

theorem HousedBook.mono {dir s} {a b : FS} (hd : ∀ d, a.dirs d = true → b.dirs d = true) (h : HousedBook dir s a) : HousedBook dir s b :=
  ⟨fun d hx => hd d (h.1 d hx), fun kh hx => hd _ (h.2 kh hx)⟩

theorem HousedPC.mono {j : Job} {pc} {a b : FS} (hd : ∀ d, a.dirs d = true → b.dirs d = true) (h : HousedPC j pc a) : HousedPC j pc b := by
  cases pc <;> simp only [HousedPC] at h ⊢
  case linkDir => exact fun d hx => hd d (h d hx)
  case link => exact ⟨fun d hx => hd d (h.1 d hx), hd _ h.2⟩
  case entry => exact h.mono hd
  case plain => exact ⟨h.1.mono hd, hd _ h.2⟩
  case commit => exact ⟨h.1.mono hd, hd _ h.2⟩
  case write => exact ⟨h.1.mono hd, hd _ h.2⟩
  case manifest => exact ⟨h.1.mono hd, hd _ h.2⟩
  case redo => exact ⟨h.1.mono hd, hd _ h.2.1, fun kh hx => hd _ (h.2.2 kh hx)⟩
  case redone => exact ⟨h.1.mono hd, hd _ h.2.1, fun kh hx => hd _ (h.2.2.1 kh hx), hd _ h.2.2.2⟩

/-- the folder of every file in `fs` that was not in `o` is there -/
def HousedFS (o fs : FS) : Prop := ∀ p, fs.files p ≠ none → o.files p ≠ none ∨ fs.dirs p.dropLast = true

theorem HousedFS.of_files {o a b : FS} (hd : ∀ d, a.dirs d = true → b.dirs d = true) (hf : ∀ p, b.files p ≠ none → a.files p ≠ none)
    (h : HousedFS o a) : HousedFS o b := fun p hp => (h p (hf p hp)).imp_right (hd _)

theorem HousedFS.put {o a b : FS} {p i hard} (hx : Put a b p i hard) (hp : a.dirs p.dropLast = true) (h : HousedFS o a) :
    HousedFS o b ∧ b.dirs = a.dirs := by
  rcases hx with ⟨_, _, mo, rfl⟩ | ⟨_, mo, rfl⟩ | ⟨j, hj, mo, rfl⟩
  · refine ⟨fun q hq => ?_, rfl⟩
    simp only [upd] at hq
    split at hq
    · rename_i hx; subst hx; exact .inr hp
    · exact h q hq
  · refine ⟨fun q hq => ?_, rfl⟩
    simp only [FS.create, upd] at hq
    split at hq
    · rename_i hx; subst hx; exact .inr hp
    · exact h q hq
  · exact ⟨fun q hq => h q hq, rfl⟩

theorem remember_housed {env : Env} {dir : Loc} {e : Entry} {s : Book} {fs : FS} (h : HousedBook dir s fs)
    (he : fs.dirs (RPath.goTo dir (subpath e)).dropLast = true) : HousedBook dir (s.remember env e) fs := by
  refine ⟨h.1, fun kh hk => ?_⟩
  simp only [Book.remember] at hk
  rcases IMap.mem_insert hk with rfl | hk
  · exact he
  · exact h.2 kh hk

theorem evict_dirs {k fs fs'} (h : evict k fs = some fs') : fs'.files = fs.files ∧ fs'.dirs = fs.dirs := by
  unfold evict at h
  split at h
  · cases h; exact ⟨rfl, rfl⟩
  · rename_i e _
    cases e with
    | broken => cases h
    | good idx' => simp only [clean, Option.some.injEq] at h; subst h; exact ⟨rfl, rfl⟩

theorem setBinMode_dirs {fs : FS} {p fs'} (h : setBinMode fs p = some fs') : fs'.files = fs.files ∧ fs'.dirs = fs.dirs := by
  unfold setBinMode at h
  split at h
  · cases h; exact ⟨rfl, rfl⟩
  · split at h
    · cases h; exact ⟨rfl, rfl⟩
    · cases h

/-- one step -/
theorem housed_step {env : Env} (ho : ∀ f, (env.ord f).Perm f) {o : FS} {j : Job} {pc : PC} {fs : FS} (h : HousedPC j pc fs) (hF : HousedFS o fs) :
    (∀ d, fs.dirs d = true → (j.step env pc fs).2.dirs d = true) ∧ HousedPC j (j.step env pc fs).1 (j.step env pc fs).2 ∧
    HousedFS o (j.step env pc fs).2 ∧ (DirsClosed fs → DirsClosed (j.step env pc fs).2) := by
  have same : ∀ pc', HousedPC j pc' fs → (∀ d, fs.dirs d = true → fs.dirs d = true) ∧ HousedPC j pc' fs ∧ HousedFS o fs ∧ (DirsClosed fs → DirsClosed fs) :=
    fun _ h => ⟨fun _ h => h, h, hF, fun h => h⟩
  have keep : ∀ {b : FS} pc', b.dirs = fs.dirs → (∀ p, b.files p ≠ none → fs.files p ≠ none) → HousedPC j pc' fs →
      (∀ d, fs.dirs d = true → b.dirs d = true) ∧ HousedPC j pc' b ∧ HousedFS o b ∧ (DirsClosed fs → DirsClosed b) := by
    intro b pc' hd hf hp
    have up : ∀ d, fs.dirs d = true → b.dirs d = true := fun d h => by rw [hd]; exact h
    exact ⟨up, hp.mono up, hF.of_files up hf, fun h => by unfold DirsClosed; rw [hd]; exact h⟩
  have put : ∀ {b : FS} {h1 m p} pc', extractFile env m fs h1 p = some b → fs.dirs p.dropLast = true → HousedPC j pc' fs →
      (∀ d, fs.dirs d = true → b.dirs d = true) ∧ HousedPC j pc' b ∧ HousedFS o b ∧ (DirsClosed fs → DirsClosed b) := by
    intro b h1 m p pc' hx hp hpc
    obtain ⟨i, _, _, hput⟩ := extractFile_put hx
    obtain ⟨k1, k2⟩ := HousedFS.put hput hp hF
    have up : ∀ d, fs.dirs d = true → b.dirs d = true := fun d h => by rw [k2]; exact h
    exact ⟨up, hpc.mono up, k1, fun h => by unfold DirsClosed; rw [k2]; exact h⟩
  cases pc with
  | start =>
    simp only [Job.step]
    split
    · split
      · exact same _ trivial
      · exact same _ trivial
      · exact same _ (fun d hd => by cases hd)
    · exact same _ trivial
  | linkDir m todo created =>
    simp only [Job.step]
    cases todo with
    | nil =>
      refine same _ ?_
      cases j.expected <;> exact trivial
    | cons kh r =>
      obtain ⟨k, hh⟩ := kh
      simp only
      cases hm : mkdirp created fs (RPath.goTo j.dir k).dropLast with
      | none => exact same _ trivial
      | some x =>
        obtain ⟨c', fs'⟩ := x
        obtain ⟨h1, h2, h3, h4, h5⟩ := mkdirp_houses hm h
        exact ⟨h1, ⟨h3, h2⟩, hF.of_files h1 (fun p hp => by rw [← h4]; exact hp), h5⟩
  | link m k hh r created =>
    simp only [Job.step]
    cases hx : extractFile env m fs hh (RPath.goTo j.dir k) with
    | none => exact same _ trivial
    | some fs' => exact put (.linkDir m r created) hx h.2 h.1
  | evict =>
    simp only [Job.step]
    cases j.expected with
    | none => exact same _ trivial
    | some i =>
      simp only
      cases hx : Tar.evict i fs with
      | none => exact same _ trivial
      | some fs' =>
        obtain ⟨k1, k2⟩ := evict_dirs hx
        exact keep (.fetch true) k2 (fun p hp => by rw [← k1]; exact hp) trivial
  | fetch cache =>
    simp only [Job.step]
    split
    · exact same _ trivial
    · split
      · exact same _ trivial
      · exact same _ trivial
  | folder cache b =>
    simp only [Job.step]
    cases hm : mkdirp [] fs j.dir with
    | none => exact same _ trivial
    | some x =>
      obtain ⟨c', fs'⟩ := x
      obtain ⟨h1, h2, h3, h4, h5⟩ := mkdirp_houses hm (fun d hd => by cases hd)
      exact ⟨h1, ⟨h3, fun kh hk => by cases hk⟩, hF.of_files h1 (fun p hp => by rw [← h4]; exact hp), h5⟩
  | entry cache b todo s =>
    simp only [Job.step]
    cases todo with
    | nil =>
      refine same _ ?_
      show HousedPC j (if (env.untar b).2 = true then PC.bins cache b (Mani.binsOf s.mani) s else PC.failed) fs
      split <;> exact trivial
    | cons e r =>
      simp only
      split
      · cases hm : mkdirp s.created fs (RPath.goTo j.dir (subpath e)).dropLast with
        | none => exact same _ trivial
        | some x =>
          obtain ⟨c', fs'⟩ := x
          obtain ⟨h1, h2, h3, h4, h5⟩ := mkdirp_houses hm h.1
          refine ⟨h1, ?_, hF.of_files h1 (fun p hp => by rw [← h4]; exact hp), h5⟩
          have hb : HousedBook j.dir { s with created := c' } fs' := ⟨h3, fun kh hk => h1 _ (h.2 kh hk)⟩
          simp only
          split <;> exact ⟨hb, h2⟩
      · exact same _ h
  | plain b e r s =>
    simp only [Job.step]
    split
    · exact same _ trivial
    · refine ⟨fun _ h => h, h.1, fun q hq => ?_, fun h => h⟩
      simp only [FS.setMode, FS.create, upd] at hq
      split at hq
      · rename_i hx; subst hx; exact .inr h.2
      · exact hF q hq
  | commit b e r s =>
    simp only [Job.step]
    exact keep (.write b e r s) rfl (fun _ h => h) h
  | write b e r s =>
    simp only [Job.step]
    cases hx : extractFile env s.mode fs (env.xxh e.content, e.bits) (RPath.goTo j.dir (subpath e)) with
    | none => exact same _ trivial
    | some fs' =>
      simp only
      split
      · exact put (.manifest b e r s) hx h.2 h
      · exact put (.entry true b r (s.remember env e)) hx h.2 (remember_housed h.1 h.2)
  | manifest b e r s =>
    simp only [Job.step]
    split
    · exact same _ trivial
    · rename_i m _
      have hb : ∀ (idx' : Bool) (mo : Mode), HousedBook j.dir { s with mode := mo, idx := { s.idx with shouldCopy := idx' }, mani := some m } fs :=
        fun _ _ => h.1
      split
      · split
        · exact same _ (remember_housed (hb true s.mode) h.2)
        · exact same _ ⟨h.1, h.2, fun kh hk => h.1.2 kh ((ho _).mem_iff.1 hk)⟩
      · exact same _ (remember_housed (hb s.idx.shouldCopy s.mode) h.2)
  | redo b e r s m l =>
    simp only [Job.step]
    cases l with
    | nil =>
      refine same _ (remember_housed (s := { s with mode := .auto, idx := { s.idx with shouldCopy := true }, mani := some m }) h.1 h.2.1)
    | cons kh l =>
      obtain ⟨k, hh⟩ := kh
      simp only
      cases hx : fs.remove (RPath.goTo j.dir k) with
      | none => exact same _ trivial
      | some fs' =>
        have := remove_eq hx
        subst this
        refine keep (.redone b e r s m k hh l) rfl (fun p hp => ?_)
          ⟨h.1, h.2.1, fun kh hk => h.2.2 kh (List.mem_cons_of_mem _ hk), h.2.2 (k, hh) (List.mem_cons_self ..)⟩
        simp only [upd] at hp
        split at hp
        · exact absurd rfl hp
        · exact hp
  | redone b e r s m k hh l =>
    simp only [Job.step]
    cases hx : extractFile env .auto fs hh (RPath.goTo j.dir k) with
    | none => exact same _ trivial
    | some fs' => exact put (.redo b e r s m l) hx h.2.2.2 ⟨h.1, h.2.1, h.2.2.1⟩
  | bins cache b l s =>
    simp only [Job.step]
    cases l with
    | nil => exact same _ trivial
    | cons x l =>
      simp only
      cases hx : setBinMode fs (RPath.goTo j.dir (RPath.components x)) with
      | none => exact same _ trivial
      | some fs' =>
        obtain ⟨k1, k2⟩ := setBinMode_dirs hx
        exact keep (.bins cache b l s) k2 (fun p hp => by rw [← k1]; exact hp) trivial
  | record cache b s =>
    simp only [Job.step]
    refine keep _ ?_ (fun p hp => ?_) trivial
    · unfold recordIndex; split <;> rfl
    · unfold recordIndex at hp; split at hp <;> exact hp
  | done i => exact same _ trivial
  | failed => exact same _ trivial

/-- the invariant of any extractions -/
structure Housed (jobs : Nat → Option Job) (o : FS) (w : Runs) : Prop where
  pc : ∀ n j, jobs n = some j → HousedPC j (w.pcs n) w.fs
  files : HousedFS o w.fs
  up : ∀ d, o.dirs d = true → w.fs.dirs d = true
  closed : DirsClosed o → DirsClosed w.fs

theorem housed_init {jobs : Nat → Option Job} (o : FS) : Housed jobs o (Runs.init o) :=
  ⟨fun _ _ _ => trivial, fun _ h => .inl h, fun _ h => h, fun h => h⟩

theorem housed_runs_step {env : Env} (ho : ∀ f, (env.ord f).Perm f) {jobs : Nat → Option Job} {o : FS} {w : Runs} (n : Nat)
    (h : Housed jobs o w) : Housed jobs o (w.step env jobs n) := by
  unfold Runs.step
  cases hj : jobs n with
  | none => exact h
  | some j =>
    obtain ⟨h1, h2, h3, h4⟩ := housed_step ho (h.pc n j hj) h.files
    refine ⟨fun n' j' hj' => ?_, h3, fun d hd => h1 d (h.up d hd), fun hc => h4 (h.closed hc)⟩
    by_cases hne : n' = n
    · subst hne
      rw [hj] at hj'; cases hj'
      simp only [upd_self]
      exact h2
    · simp only [upd_ne _ _ hne]
      exact (h.pc n' j' hj').mono h1

theorem housed_run {env : Env} (ho : ∀ f, (env.ord f).Perm f) {jobs : Nat → Option Job} {o : FS} (sched : List Nat) (w : Runs)
    (h : Housed jobs o w) : Housed jobs o (w.run env jobs sched) := by
  induction sched generalizing w with
  | nil => exact h
  | cons n r ih => exact ih _ (housed_runs_step ho n h)

end Tar
end Oro
