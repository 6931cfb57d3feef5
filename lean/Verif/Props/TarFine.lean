import Verif.Proofs.TarFine
import Verif.Props.TarRun
/-
C91: packages extracted at the same time, through one cache, do not make each other fail.
-/

set_option linter.unusedSectionVars false

namespace Oro
namespace Tar

/-- If what is to be extracted can be had and is in order, and nothing in the cache is damaged, no extraction fails, at any moment
of any schedule. -/
theorem C91_no_failure_partial (env : Env) (ho : ∀ f, (env.ord f).Perm f) (hcol : NoCol env) (fs : FS) (hs : Sane fs)
    (hh : Honest env fs) (jobs : Nat → Option Job) (tar : Nat → Bytes) (h : Ready env jobs tar fs) (sched : List Nat)
    (n : Nat) (j : Job) (hj : jobs n = some j) :
    (((Runs.init fs).run env jobs sched).pcs n).outcome ≠ some none := by
  have hF := (fine_run ho hcol h sched _ (fine_init hs (honest_weak hh) h)).pc n j hj
  cases hx : ((Runs.init fs).run env jobs sched).pcs n <;> rw [hx] at hF <;> simp only [PC.outcome] <;>
    first
      | exact hF.elim
      | exact fun h => (by cases h)

/-- So every extraction that is given its turns succeeds, whatever the others do meanwhile; it then holds the integrity that was
expected, and all files of the package are in its folder. -/
theorem C91_succeeds_partial (env : Env) (ho : ∀ f, (env.ord f).Perm f) (hcol : NoCol env) (fs : FS) (hs : Sane fs)
    (hh : Honest env fs) (jobs : Nat → Option Job) (tar : Nat → Bytes) (h : Ready env jobs tar fs) (s : Nat → Nat)
    (n : Nat) (j : Job) (hj : jobs n = some j) (hfair : ∀ N, ∃ m, N ≤ m ∧ s m = n) :
    ∃ m, let w := (Runs.init fs).run env jobs ((List.range m).map s)
      (w.pcs n).outcome = some (some (j.expected.getD (env.sri (tar n)))) ∧
      ∀ e ∈ (env.untar (tar n)).1, e.regular = true → ∃ c, Holds w.fs (place j.dir e) c ∧ env.xxh c = env.xxh e.content := by
  obtain ⟨m, hm⟩ := C91_ends env jobs fs s n j hj hfair
  refine ⟨m, ?_⟩
  have hF := fine_run ho hcol h ((List.range m).map s) _ (fine_init hs (honest_weak hh) h)
  have hpc := hF.pc n j hj
  have hinv := hF.inv.pc n j hj
  cases hx : ((Runs.init fs).run env jobs ((List.range m).map s)).pcs n <;> rw [hx] at hm hpc hinv <;> try cases hm
  · rename_i i
    refine ⟨by rw [hx]; exact congrArg (fun x => some (some x)) hpc, fun e he hr => ?_⟩
    obtain ⟨k, hk⟩ := Option.isSome_iff_exists.1 (hinv e he hr)
    exact ⟨_, ⟨k, hk, rfl⟩, hF.inv.right n j hj e he hr k hk⟩
  · exact hpc.elim

/-! ### Such a machine -/

namespace ExR

/-- the extractions of `jobs`, the first one without a network -/
def jobsC : Nat → Option Job
  | 0 => some ⟨ExT.d2, true, .hardlink, some (ExT.n 6), none⟩
  | n => jobs n

/-- a machine that has package 6 in its cache -/
def fsC : FS :=
  { ExT.empty with
    next := 2
    content := fun i => if i = 0 then [10] else [8]
    store := fun h => if h = ExT.str [10] then some 0 else if h = ExT.str [8] then some 1 else none
    index := fun k => if k = ExT.n 6 then some (.good ⟨false, [], listing ExT.env (ExT.env.untar [6]).1 []⟩) else none }

theorem fsC_sane : Sane fsC := by
  refine ⟨fun _ _ h => (by cases h), fun h i hi => ?_⟩
  simp only [fsC] at hi ⊢
  split at hi
  · cases hi; omega
  · split at hi
    · cases hi; omega
    · cases hi

theorem fsC_index {k ce} (h : fsC.index k = some ce) :
    k = ExT.n 6 ∧ ce = .good ⟨false, [], listing ExT.env (ExT.env.untar [6]).1 []⟩ := by
  simp only [fsC] at h
  split at h
  · rename_i hk; cases h; exact ⟨hk, rfl⟩
  · cases h

theorem fsC_honest : Honest ExT.env fsC := by
  intro k idx h
  obtain ⟨rfl, hx⟩ := fsC_index h
  cases hx
  refine ⟨[6], (ExT.n_check _ _).2 rfl, rfl, rfl, by decide +kernel, ?_⟩
  rintro ⟨e, he, _, hp, m, hm, hs⟩
  exfalso
  have : ∀ e ∈ (ExT.env.untar [6]).1, (ExT.env.manifest e.content).any (·.scripts) = false := by decide +kernel
  have h2 := this e he
  rw [hm] at h2
  simp [hs] at h2

theorem fsC_stocked : Stocked ExT.env fsC (listing ExT.env (ExT.env.untar [6]).1 []) := by
  have : ∀ kh ∈ listing ExT.env (ExT.env.untar [6]).1 [], ∃ i ∈ [0, 1], fsC.store kh.2.1 = some i ∧ ExT.env.xxh (fsC.content i) = kh.2.1 := by
    decide +kernel
  intro kh hkh
  obtain ⟨i, _, h⟩ := this kh hkh
  exact ⟨i, h⟩

theorem jobsC_cases {n j} (h : jobsC n = some j) : n = 0 ∨ n = 1 ∨ n = 2 := by
  match n with
  | 0 => simp
  | 1 => simp
  | 2 => simp
  | _ + 3 => cases h

theorem soundOf (b : Bytes) (h1 : ((ExT.env.untar b).1.filter fun e => e.regular).Pairwise fun a b =>
      ¬ (RPath.components a.header).tail <+: (RPath.components b.header).tail ∧
      ¬ (RPath.components b.header).tail <+: (RPath.components a.header).tail)
    (h2 : ∀ e ∈ (ExT.env.untar b).1, (RPath.components e.header).tail ≠ [])
    (h3 : ∀ e ∈ (ExT.env.untar b).1, (RPath.components e.header).tail = [.normal kPackageJson] → (ExT.env.manifest e.content).isSome)
    (h4 : commands ExT.env (ExT.env.untar b).1 = []) : Sound ExT.env (ExT.env.untar b).1 where
  apart := h1
  named e he _ := h2 e he
  manifest e he _ hp hn := by have := h3 e he hp; rw [hn] at this; cases this
  commands x hx := by rw [h4] at hx; cases hx

theorem ready : Ready ExT.env jobsC tar fsC where
  laid n j h n' j' h' hne := by
    rcases jobsC_cases h with rfl | rfl | rfl <;> rcases jobsC_cases h' with rfl | rfl | rfl <;>
      first
        | exact absurd rfl hne
        | (cases h; cases h'; unfold Inside; exact ⟨by decide, by decide⟩)
  below n j h := by rcases jobsC_cases h with rfl | rfl | rfl <;> cases h <;> decide
  files n j h p _ := rfl
  above n j h q _ := rfl
  dirs n j h d _ _ := rfl
  fits n j h t := by
    rcases jobsC_cases h with rfl | rfl | rfl <;> cases h <;> exact ExT.n_check _ _
  complete n j h := by rcases jobsC_cases h with rfl | rfl | rfl <;> rfl
  plain n j h := by
    rcases jobsC_cases h with rfl | rfl | rfl <;> exact plainOf _ (by decide +kernel)
  unbundled n j h := by
    rcases jobsC_cases h with rfl | rfl | rfl <;> (unfold Unbundled; decide +kernel)
  sound n j h := by
    rcases jobsC_cases h with rfl | rfl | rfl <;>
      exact soundOf _ (by decide +kernel) (by decide +kernel) (by decide +kernel) (by decide +kernel)
  served n j h := by
    rcases jobsC_cases h with rfl | rfl | rfl <;> cases h
    · exact .inr ⟨rfl, ExT.n 6, _, rfl, rfl⟩
    · exact .inl ⟨_, rfl, rfl⟩
    · exact .inl ⟨_, rfl, rfl⟩
  cached n j h i hi ce hce := by
    obtain ⟨_, rfl⟩ := fsC_index hce
    exact ⟨_, rfl, fsC_stocked⟩

end ExR

-- so none of the three fails, in whatever order they take turns
example (sched : List Nat) : (((Runs.init ExR.fsC).run ExT.env ExR.jobsC sched).pcs 0).outcome ≠ some none :=
  C91_no_failure_partial ExT.env ExT.ord_perm (fun c c' h => by rw [ExT.str_inj c c' h]) ExR.fsC ExR.fsC_sane ExR.fsC_honest ExR.jobsC
    ExR.tar ExR.ready sched 0 _ rfl

/-! ### Packages with bundled dependencies -/

/-- an archive with a file in `node_modules`, as left there by some package managers -/
def ExR.envB : Env :=
  { ExT.env with
    untar := fun b => match b with
      | [9] => ([ExT.f ExT.pj [8], ExT.f (['p', '/'] ++ kNodeModules ++ ['/', '.', 'i']) [12]], true)
      | b => ExT.env.untar b }

/-- package 9, and package 6 as a dependency in its `node_modules` -/
def ExR.jobsB : Nat → Option Job
  | 0 => some ⟨ExT.d2, true, .hardlink, some (ExT.n 9), ExT.net 9⟩
  | 1 => some ⟨ExT.d2 ++ [kNodeModules, ['y']], true, .hardlink, some (ExT.n 6), ExT.net 6⟩
  | _ => none

/-- C91 fails for packages that have a file directly in their own `node_modules`: if a dependency that is installed there makes that
folder first, the package cannot be extracted; the other way round both succeed.  (Nothing is damaged here and everything is
delivered.) -/
theorem C91_bundled_fails :
    (∃ sched, let w := (Runs.init ExT.empty).run ExR.envB ExR.jobsB sched
      (w.pcs 0).outcome = some none ∧ (w.pcs 1).outcome = some (some (ExT.n 6))) ∧
    ∃ sched, let w := (Runs.init ExT.empty).run ExR.envB ExR.jobsB sched
      (w.pcs 0).outcome = some (some (ExT.n 9)) ∧ (w.pcs 1).outcome = some (some (ExT.n 6)) := by
  refine ⟨⟨List.replicate 20 1 ++ List.replicate 20 0, ?_, ?_⟩, List.replicate 20 0 ++ List.replicate 20 1, ?_, ?_⟩ <;> decide +kernel

end Tar
end Oro
