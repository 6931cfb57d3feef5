import Verif.Proofs.InstallRun
import Verif.Spec.Further
/-
Installations into a node_modules in which there are packages already.
-/

set_option linter.unusedSectionVars false

namespace Oro
namespace Tar

theorem runs_congr {env : Env} {jobs jobs' : Nat → Option Job} {l : List Nat} (h : ∀ n ∈ l, jobs n = jobs' n) (w : Runs) :
    w.run env jobs l = w.run env jobs' l := by
  induction l generalizing w with
  | nil => rfl
  | cons n l ih =>
    have h1 : w.step env jobs n = w.step env jobs' n := by unfold Runs.step; rw [h n (by simp)]
    show Runs.run env jobs (w.step env jobs n) l = Runs.run env jobs' (w.step env jobs' n) l
    rw [h1]
    exact ih (fun m hm => h m (List.mem_cons_of_mem _ hm)) _

theorem vacant_of {fs : FS} (hp : Proper fs) {d : Loc} (h : fs.taken d = false) : Vacant fs d := by
  intro p hin
  simp only [FS.taken, Bool.or_eq_false_iff, Option.isSome_eq_false_iff, Option.isNone_iff_eq_none] at h
  by_cases he : p = d
  · rw [he]; exact h.1
  · by_contra hne
    have := hp.closed _ (hp.housed p hne) d (prefix_dropLast hin (fun hx => he hx.symm))
    rw [h.2] at this; cases this

end Tar

namespace Hoisted

/-- the extractions of the packages whose folder is not there -/
def absent (jobs : Nat → Option Tar.Job) (fs : Tar.FS) : Nat → Option Tar.Job := fun n => (jobs n).filter fun j => !fs.taken j.dir

theorem absent_some {jobs : Nat → Option Tar.Job} {fs : Tar.FS} {n : Nat} {j : Tar.Job} :
    absent jobs fs n = some j ↔ jobs n = some j ∧ fs.taken j.dir = false := by
  unfold absent
  rw [Option.filter_eq_some_iff]
  simp

theorem absent_none {jobs : Nat → Option Tar.Job} {fs : Tar.FS} {n : Nat} {j : Tar.Job} (hj : jobs n = some j) (h : fs.taken j.dir = true) :
    absent jobs fs n = none := by
  cases hx : absent jobs fs n with
  | none => rfl
  | some j' =>
    obtain ⟨h1, h2⟩ := absent_some.1 hx
    rw [hj] at h1; cases h1
    rw [h] at h2; cases h2

theorem absent_vacant {jobs : Nat → Option Tar.Job} {fs : Tar.FS} (hp : Tar.Proper fs) : Tar.AllVacant (absent jobs fs) fs :=
  fun _ _ hj => Tar.vacant_of hp (absent_some.1 hj).2

theorem absent_separate {env : Tar.Env} {jobs : Nat → Option Tar.Job} {fs : Tar.FS} {tar : Nat → Bytes} (h : Tar.Separate env jobs tar) :
    Tar.Separate env (absent jobs fs) tar where
  fits n j hj := h.fits n j (absent_some.1 hj).1
  plain n j hj := h.plain n j (absent_some.1 hj).1
  distinct n j hj := h.distinct n j (absent_some.1 hj).1
  apart n j hj n' j' hj' := h.apart n j (absent_some.1 hj).1 n' j' (absent_some.1 hj').1

variable {env : Tar.Env} {build : Bytes → Option Bool} {jobs : Nat → Option Tar.Job} {tar : Nat → Bytes} {fs : Tar.FS}

/-- Where an installation stands: what was done so far are steps of extractions of packages whose folders were not there. -/
structure Begun (env : Tar.Env) (jobs : Nat → Option Tar.Job) (fs : Tar.FS) (l : List Nat) (x : XRun) : Prop where
  runs : x.runs = (Tar.Runs.init fs).run env (absent jobs fs) l
  steps : ∀ n ∈ l, (x.phase n).begun = true
  begun : ∀ n, (x.phase n).begun = true → ∃ j, absent jobs fs n = some j

theorem begun_upd {x : XRun} {l : List Nat} {n : Nat} {p : XPhase} (h : Begun env jobs fs l x) (hn : (x.phase n).begun = true → p.begun = true)
    (hp : p.begun = true → ∃ j, absent jobs fs n = some j) : Begun env jobs fs l { x with phase := Tar.upd x.phase n p } := by
  refine ⟨h.runs, fun m hm => ?_, fun m hm => ?_⟩
  · by_cases he : m = n
    · subst he; simp only [Tar.upd_self]; exact hn (h.steps m hm)
    · simp only [Tar.upd_ne _ _ he]; exact h.steps m hm
  · by_cases he : m = n
    · subst he; simp only [Tar.upd_self] at hm; exact hp hm
    · simp only [Tar.upd_ne _ _ he] at hm; exact h.begun m hm

theorem begun_go {x : XRun} {l : List Nat} {n : Nat} {j : Tar.Job} (h : Begun env jobs fs l x) (hj : absent jobs fs n = some j) :
    Begun env jobs fs (l ++ [n]) ⟨x.runs.step env jobs n, Tar.upd x.phase n .extracting⟩ := by
  refine ⟨?_, fun m hm => ?_, fun m hm => ?_⟩
  · rw [Tar.runs_snoc, ← h.runs]
    unfold Tar.Runs.step
    rw [hj, (absent_some.1 hj).1]
  · by_cases he : m = n
    · subst he; simp only [Tar.upd_self, XPhase.begun]
    · simp only [Tar.upd_ne _ _ he]
      exact h.steps m ((List.mem_append.1 hm).resolve_right (fun hc => he (List.mem_singleton.1 hc)))
  · by_cases he : m = n
    · subst he; exact ⟨j, hj⟩
    · simp only [Tar.upd_ne _ _ he] at hm; exact h.begun m hm

/-- what is there stays there -/
theorem taken_stays (ho : ∀ f, (env.ord f).Perm f) (hp : Tar.Proper fs) (hs : Tar.Sane fs) (hh : Tar.HonestF False env fs)
    (ha : Tar.Separate env jobs tar) (l : List Nat) {d : Loc} (h : fs.taken d = true) :
    ((Tar.Runs.init fs).run env (absent jobs fs) l).fs.taken d = true := by
  have inv := Tar.inv_run ho (fun h => h.elim) (absent_separate ha) l _ (Tar.inv_init hs hh (absent_separate ha) (absent_vacant hp))
  have hH := Tar.housed_run ho l _ (Tar.housed_init (jobs := absent jobs fs) fs)
  simp only [Tar.FS.taken, Bool.or_eq_true] at h ⊢
  rcases h with h | h
  · refine .inl ?_
    rw [inv.files d]
    · exact h
    · intro n j hj e he hr hx
      have := absent_vacant hp n j hj _ (Tar.place_inside (Tar.plain_contained (ha.plain n j (absent_some.1 hj).1)) he hr)
      rw [hx] at this
      rw [this] at h; cases h
  · exact .inr (hH.up d h)

theorem begun_step (ho : ∀ f, (env.ord f).Perm f) (hp : Tar.Proper fs) (hs : Tar.Sane fs) (hh : Tar.HonestF False env fs)
    (ha : Tar.Separate env jobs tar) {x : XRun} {l : List Nat} (h : Begun env jobs fs l x) (n : Nat) :
    ∃ l', Begun env jobs fs l' (x.step env build jobs n) := by
  unfold XRun.step
  cases hj : jobs n with
  | none => exact ⟨l, h⟩
  | some j =>
    simp only
    cases hph : x.phase n with
    | waiting =>
      simp only
      cases ht : x.runs.fs.taken j.dir with
      | true =>
        simp only [if_true]
        exact ⟨l, begun_upd h (by rw [hph]; exact fun hc => Bool.noConfusion hc) (fun hc => Bool.noConfusion hc)⟩
      | false =>
        simp only [Bool.false_eq_true, if_false]
        refine ⟨_, begun_go h (absent_some.2 ⟨hj, ?_⟩)⟩
        cases hx : fs.taken j.dir with
        | false => rfl
        | true =>
          have := taken_stays ho hp hs hh ha l hx
          rw [← h.runs, ht] at this; cases this
    | extracting =>
      obtain ⟨j', hj'⟩ := h.begun n (by rw [hph]; rfl)
      simp only
      split
      · exact ⟨l, begun_upd h (fun _ => rfl) (fun _ => ⟨j', hj'⟩)⟩
      · split
        · exact ⟨l, begun_upd h (fun _ => rfl) (fun _ => ⟨j', hj'⟩)⟩
        · exact ⟨l, begun_upd h (fun _ => rfl) (fun _ => ⟨j', hj'⟩)⟩
      · have := begun_go h hj'
        rw [← hph, upd_same] at this
        exact ⟨_, this⟩
    | _ => exact ⟨l, h⟩

theorem begun_run (ho : ∀ f, (env.ord f).Perm f) (hp : Tar.Proper fs) (hs : Tar.Sane fs) (hh : Tar.HonestF False env fs)
    (ha : Tar.Separate env jobs tar) (sched : List Nat) : ∃ l, Begun env jobs fs l ((XRun.init fs).run env build jobs sched) := by
  induction sched using List.reverseRecOn with
  | nil => exact ⟨[], rfl, fun _ h => (by cases h), fun _ h => (by cases h)⟩
  | append_singleton l n ih =>
    rw [xrun_snoc]
    obtain ⟨l', h⟩ := ih
    exact begun_step ho hp hs hh ha h n

/-- how a package got to where it is -/
theorem xrun_moments (sched : List Nat) (n : Nat) (j : Tar.Job) (hj : jobs n = some j) :
    match ((XRun.init fs).run env build jobs sched).phase n with
    | .waiting => True
    | .extracting => True
    | .skipped => ∃ pre, pre <+: sched ∧ ((XRun.init fs).run env build jobs pre).runs.fs.taken j.dir = true
    | .extracted b => (∃ i, ((XRun.init fs).run env build jobs sched).runs.pcs n = .done i) ∧
        ∃ pre, pre <+: sched ∧ ∃ c, Tar.Holds ((XRun.init fs).run env build jobs pre).runs.fs (j.dir ++ [Tar.kPackageJson]) c ∧ build c = some b
    | .failed => ((XRun.init fs).run env build jobs sched).runs.pcs n = .failed ∨
        ∃ pre, pre <+: sched ∧ ∀ c, Tar.Holds ((XRun.init fs).run env build jobs pre).runs.fs (j.dir ++ [Tar.kPackageJson]) c → build c = none := by
  induction sched using List.reverseRecOn with
  | nil => exact trivial
  | append_singleton l m ih =>
    have hpre : l <+: l ++ [m] := List.prefix_append _ _
    rw [xrun_snoc]
    generalize hw : (XRun.init fs).run env build jobs l = w at ih ⊢
    -- nothing happens to this package
    have keep : ∀ w' : XRun, w'.phase n = w.phase n → (((w.phase n) ≠ .waiting ∧ w.phase n ≠ .extracting) → w'.runs.pcs n = w.runs.pcs n) →
        match w'.phase n with
        | .waiting => True
        | .extracting => True
        | .skipped => ∃ pre, pre <+: l ++ [m] ∧ ((XRun.init fs).run env build jobs pre).runs.fs.taken j.dir = true
        | .extracted b => (∃ i, w'.runs.pcs n = .done i) ∧
            ∃ pre, pre <+: l ++ [m] ∧ ∃ c, Tar.Holds ((XRun.init fs).run env build jobs pre).runs.fs (j.dir ++ [Tar.kPackageJson]) c ∧ build c = some b
        | .failed => w'.runs.pcs n = .failed ∨
            ∃ pre, pre <+: l ++ [m] ∧ ∀ c, Tar.Holds ((XRun.init fs).run env build jobs pre).runs.fs (j.dir ++ [Tar.kPackageJson]) c → build c = none := by
      intro w' h1 h2
      rw [h1]
      cases hph : w.phase n with
      | waiting => trivial
      | extracting => trivial
      | skipped =>
        rw [hph] at ih
        obtain ⟨pre, h3, h4⟩ := ih
        exact ⟨pre, h3.trans hpre, h4⟩
      | extracted b =>
        rw [hph] at ih h2
        obtain ⟨h3, pre, h4, h5⟩ := ih
        rw [h2 ⟨fun h => (by cases h), fun h => (by cases h)⟩]
        exact ⟨h3, pre, h4.trans hpre, h5⟩
      | failed =>
        rw [hph] at ih h2
        rw [h2 ⟨fun h => (by cases h), fun h => (by cases h)⟩]
        rcases ih with h3 | ⟨pre, h4, h5⟩
        · exact .inl h3
        · exact .inr ⟨pre, h4.trans hpre, h5⟩
    by_cases he : n = m
    · subst he
      have hstep : w.step env build jobs n = w.step env build jobs n := rfl
      conv_rhs at hstep => unfold XRun.step
      simp only [hj] at hstep
      cases hph : w.phase n with
      | waiting =>
        rw [hph] at hstep
        simp only at hstep
        cases ht : w.runs.fs.taken j.dir with
        | true =>
          rw [ht, if_pos rfl] at hstep
          rw [hstep]
          simp only [Tar.upd_self]
          exact ⟨l, hpre, by rw [hw]; exact ht⟩
        | false =>
          rw [ht, if_neg (by simp)] at hstep
          rw [hstep]
          simp only [Tar.upd_self]
      | extracting =>
        rw [hph] at hstep
        simp only at hstep
        cases hpc : w.runs.pcs n with
        | failed =>
          simp only [hpc] at hstep
          rw [hstep]
          simp only [Tar.upd_self]
          exact .inl hpc
        | done i =>
          simp only [hpc] at hstep
          rw [hstep]
          cases hb : (w.runs.fs.files (j.dir ++ [Tar.kPackageJson])).bind fun i => build (w.runs.fs.content i) with
          | none =>
            simp only [Tar.upd_self]
            refine .inr ⟨l, hpre, fun c hc => ?_⟩
            rw [hw] at hc
            obtain ⟨k, h1, h2⟩ := hc
            rw [h1, Option.bind_some, h2] at hb
            exact hb
          | some b =>
            simp only [Tar.upd_self]
            obtain ⟨k, h1, h2⟩ := Option.bind_eq_some_iff.1 hb
            exact ⟨⟨i, hpc⟩, l, hpre, _, ⟨k, by rw [hw]; exact h1, by rw [hw]⟩, h2⟩
        | _ =>
          simp only [hpc] at hstep
          rw [hstep]
          simp only [hph]
      | _ =>
        rw [hph] at hstep
        simp only at hstep
        rw [hstep]
        exact keep _ rfl (fun _ => rfl)
    · refine keep _ ?_ (fun _ => ?_)
      · unfold XRun.step
        repeat' split
        all_goals first | rfl | simp only [Tar.upd_ne _ _ he]
      · unfold XRun.step Tar.Runs.step
        repeat' split
        all_goals first | rfl | simp only [Tar.upd_ne _ _ he]

end Hoisted
end Oro
