import Verif.Proofs.TarFine
import Verif.Spec.Offline
/-
Extractions that go well leave their package in the cache.
-/

set_option linter.unusedSectionVars false

namespace Oro
namespace Tar

theorem incache_kept {env : Env} {a b : FS} (h : CacheKept env a b) {i} (hi : InCache env i a) : InCache env i b := by
  obtain ⟨idx, h1, h2⟩ := hi
  refine ⟨idx, h.index i idx h1, fun kh hkh => ?_⟩
  obtain ⟨k, h3, h4⟩ := h2 kh hkh
  exact h.contents _ k h3 h4

/-- what a step that goes well does -/
theorem fine_gives {env : Env} {jobs tar o w n j} (ho : ∀ f, (env.ord f).Perm f) (hcol : NoCol env) (h : Ready env jobs tar o)
    (hF : Fine env jobs tar o w) (hj : jobs n = some j) : Gives env j (env.untar (tar n)).1 w.fs (j.step env (w.pcs n) w.fs).2 := by
  have hP := h.place hj
  have hst := step_ok ho (fun _ => hcol) (h.separate.fits n j hj) (h.plain n j hj) (h.separate.distinct n j hj) hF.inv.sane
    (hF.inv.right n j hj) hF.inv.honest (hF.inv.pc n j hj)
  have hnd : ∀ e ∈ (env.untar (tar n)).1, e.regular = true → w.fs.dirs (Tar.place j.dir e) = false := by
    intro e he hr
    cases hx : w.fs.dirs (Tar.place j.dir e) with
    | false => rfl
    | true =>
      obtain ⟨e', he', hr', hp⟩ := hF.dirs n j hj _ (hP.own he hr).1 (hP.own he hr).2 hx
      exact (hP.not_within he hr he' hr' hp).elim
  have hnf : ∀ e ∈ (env.untar (tar n)).1, e.regular = true → ∀ q, q <+: (Tar.place j.dir e).dropLast → w.fs.files q = none := by
    intro e he hr q hq
    rcases List.prefix_or_prefix_of_prefix hq (hP.parent he hr).1.1 with hx | hx
    · exact no_file h hF.inv hj (.inr hx)
    · refine no_file h hF.inv hj (.inl ⟨own_between (hP.parent he hr).1 hq hx, fun e' he' hr' hpe => ?_⟩)
      exact hP.not_within he' hr' he hr (by rw [hpe]; exact hq)
  exact (step_fine ho hcol hP (h.fits n j hj) (h.complete n j hj) hF.inv.sane (hF.inv.right n j hj) hst
    (hF.inv.pc n j hj) (hF.pc n j hj) (fun q hq => no_file h hF.inv hj (.inr hq)) hnf hnd (hF.index n j hj)).2

/-- what is in the cache stays there -/
theorem Gives.incache {env : Env} {j es} {a b : FS} (hg : Gives env j es a b) {i} (hi : InCache env i a) : InCache env i b := by
  obtain ⟨idx, h1, h2⟩ := hi
  obtain ⟨idx', h3⟩ := hg.keeps i idx h1
  rcases hg.index i _ h3 with h4 | ⟨idx'', h4, h5⟩
  · rw [h1] at h4
    cases h4
    exact ⟨idx, h3, stocked_of hg.stock h2⟩
  · cases h4
    exact ⟨idx', h3, h5⟩

/-- where an extraction stands as to the cache -/
def FiledPC (env : Env) (j : Job) (pc : PC) (fs : FS) : Prop :=
  match pc with
  | .linkDir .. | .link .. => ∃ i, j.expected = some i ∧ InCache env i fs
  | .fetch c | .folder c _ | .entry c _ _ _ | .bins c _ _ _ | .record c _ _ => c = j.cache
  | .plain .. => j.cache = false
  | .commit .. | .write .. | .manifest .. | .redo .. | .redone .. => j.cache = true
  | .done i => j.cache = true → InCache env i fs
  | .start | .evict | .failed => True

theorem filed_other {env : Env} {j : Job} {pc} {a b : FS} (hk : ∀ i, InCache env i a → InCache env i b) (h : FiledPC env j pc a) :
    FiledPC env j pc b := by
  cases pc with
  | linkDir => obtain ⟨i, h1, h2⟩ := h; exact ⟨i, h1, hk i h2⟩
  | link => obtain ⟨i, h1, h2⟩ := h; exact ⟨i, h1, hk i h2⟩
  | done i => exact fun hc => hk i (h hc)
  | _ => exact h

/-- One step. -/
theorem filed_step {env : Env} {j : Job} {t : Bytes} {pc : PC} {fs : FS} (hF : FinePC env j t pc fs)
    (hix : ∀ i, j.expected = some i → ∀ ce, fs.index i = some ce → ∃ idx, ce = .good idx ∧ Stocked env fs idx.files)
    (hk : ∀ i, InCache env i fs → InCache env i (j.step env pc fs).2) (h : FiledPC env j pc fs) :
    FiledPC env j (j.step env pc fs).1 (j.step env pc fs).2 := by
  cases pc with
  | start =>
    unfold Job.step
    cases he : j.expected with
    | none => simp only [FiledPC]
    | some i =>
      cases hc : j.cache with
      | false => simp only [FiledPC, hc]
      | true =>
        simp only
        cases hx : fs.index i with
        | none => simp only [FiledPC, hc]
        | some ce =>
          obtain ⟨idx, rfl, h2⟩ := hix i he ce hx
          exact ⟨i, he, idx, hx, h2⟩
  | linkDir m todo created =>
    obtain ⟨i, h1, h2⟩ := h
    have h3 := hk i h2
    revert h3
    unfold Job.step
    cases todo with
    | nil => simp only [h1]; exact fun h3 _ => h3
    | cons kh r =>
      simp only
      split
      · exact fun _ => trivial
      · exact fun h3 => ⟨i, h1, h3⟩
  | link m k hh todo created =>
    obtain ⟨i, h1, h2⟩ := h
    have h3 := hk i h2
    revert h3
    unfold Job.step
    simp only
    split
    · exact fun _ => trivial
    · exact fun h3 => ⟨i, h1, h3⟩
  | evict => exact hF.elim
  | failed => exact hF.elim
  | fetch c =>
    have h : c = j.cache := h
    unfold Job.step
    simp only
    repeat' split
    all_goals first | exact trivial | exact h
  | folder c b =>
    have h : c = j.cache := h
    unfold Job.step
    simp only
    repeat' split
    all_goals first | exact trivial | exact h
  | entry c b todo s =>
    have h : c = j.cache := h
    unfold Job.step
    cases todo with
    | nil => simp only; split <;> first | exact h | exact trivial
    | cons e r =>
      simp only
      split
      · split
        · exact trivial
        · cases hc : c with
          | true => simp only [if_true]; exact (h.symm.trans hc)
          | false => simp only [Bool.false_eq_true, if_false]; exact (h.symm.trans hc)
      · exact h
  | plain b e r s =>
    have h : j.cache = false := h
    unfold Job.step
    simp only
    split
    · exact trivial
    · exact h.symm
  | commit => exact h
  | write b e r s =>
    have h : j.cache = true := h
    unfold Job.step
    simp only
    split
    · exact trivial
    · split
      · exact h
      · exact h.symm
  | manifest b e r s =>
    have h : j.cache = true := h
    unfold Job.step
    simp only
    split
    · exact trivial
    · repeat' split
      all_goals first | exact h | exact h.symm
  | redo b e r s m l =>
    have h : j.cache = true := h
    unfold Job.step
    simp only
    repeat' split
    all_goals first | exact trivial | exact h | exact h.symm
  | redone b e r s m k hh l =>
    have h : j.cache = true := h
    unfold Job.step
    simp only
    repeat' split
    all_goals first | exact trivial | exact h | exact h.symm
  | bins c b l s =>
    have h : c = j.cache := h
    unfold Job.step
    simp only
    repeat' split
    all_goals first | exact trivial | exact h
  | record c b s =>
    have h : c = j.cache := h
    simp only [Job.step, FiledPC]
    intro hc
    rw [hc] at h
    subst h
    exact ⟨{ s.idx with binPaths := s.idx.binPaths ++ Mani.binsOf s.mani }, by simp only [recordIndex, if_true, upd_self], fun kh hkh => hF kh hkh⟩
  | done i => exact h

/-- the invariant -/
def Filed (env : Env) (jobs : Nat → Option Job) (w : Runs) : Prop := ∀ n j, jobs n = some j → FiledPC env j (w.pcs n) w.fs

theorem filed_runs_step {env : Env} {jobs tar o w n} (ho : ∀ f, (env.ord f).Perm f) (hcol : NoCol env) (h : Ready env jobs tar o)
    (hF : Fine env jobs tar o w) (hf : Filed env jobs w) :
    Filed env jobs (w.step env jobs n) ∧ ∀ i, InCache env i w.fs → InCache env i (w.step env jobs n).fs := by
  unfold Runs.step
  cases hj : jobs n with
  | none => exact ⟨hf, fun _ h => h⟩
  | some j =>
    have hg := fine_gives ho hcol h hF hj
    refine ⟨fun n' j' hj' => ?_, fun i hi => hg.incache hi⟩
    by_cases hne : n' = n
    · subst hne
      rw [hj] at hj'; cases hj'
      simp only [upd_self]
      exact filed_step (hF.pc _ _ hj) (hF.index _ _ hj) (fun i hi => hg.incache hi) (hf _ _ hj)
    · simp only [upd_ne _ _ hne]
      exact filed_other (fun i hi => hg.incache hi) (hf n' j' hj')

theorem filed_init {env : Env} {jobs fs} : Filed env jobs (.init fs) := fun _ _ _ => trivial

theorem filed_run {env : Env} {jobs tar o} (ho : ∀ f, (env.ord f).Perm f) (hcol : NoCol env) (h : Ready env jobs tar o)
    (sched : List Nat) (w : Runs) (hF : Fine env jobs tar o w) (hf : Filed env jobs w) :
    Filed env jobs (w.run env jobs sched) ∧ ∀ i, InCache env i w.fs → InCache env i (w.run env jobs sched).fs := by
  induction sched generalizing w with
  | nil => exact ⟨hf, fun _ h => h⟩
  | cons n r ih =>
    obtain ⟨h1, h2⟩ := filed_runs_step (n := n) ho hcol h hF hf
    obtain ⟨h3, h4⟩ := ih _ (fine_step ho hcol h hF) h1
    exact ⟨h3, fun i hi => h4 i (h2 i hi)⟩

end Tar
end Oro
