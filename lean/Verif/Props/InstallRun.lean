import Verif.Proofs.InstallRun
import Verif.Props.TarFine
import Verif.Props.Works
import Mathlib.Data.List.Range
/-
C92: a first hoisted installation, down to the accesses to the file system and the cache.
-/

set_option linter.unusedSectionVars false

namespace Oro

/-- Whatever is extracted, and in whatever order things happen: a file that was not there before is in a folder, folders do not
disappear, and what is in a folder's folder is in a folder. -/
theorem Tar.C92_housed (env : Tar.Env) (ho : ∀ f, (env.ord f).Perm f) (jobs : Nat → Option Tar.Job) (fs : Tar.FS) (sched : List Nat) :
    let w := ((Tar.Runs.init fs).run env jobs sched).fs
    (∀ p, w.files p ≠ none → fs.files p = none → w.dirs p.dropLast = true) ∧ (∀ d, fs.dirs d = true → w.dirs d = true) ∧
    ((∀ d, fs.dirs d = true → ∀ q, q <+: d → fs.dirs q = true) → ∀ d, w.dirs d = true → ∀ q, q <+: d → w.dirs q = true) := by
  have h := Tar.housed_run ho sched _ (Tar.housed_init (jobs := jobs) fs)
  exact ⟨fun p h1 h2 => (h.files p h1).resolve_left (fun h => h h2), h.up, h.closed⟩

namespace Hoisted
variable {P S : Type} [DecidableEq S]
variable {env : Tar.Env} {build : Bytes → Option Bool} {pr : Bytes → Bytes} {pk : Pkgs P} {g : Graph Str P S} {o : XOpts}
  {fetch : P → Option Tar.Integrity × Option (List Tar.Ev)} {tar : P → Bytes} {fs : Tar.FS}

/-- In a first installation no package is passed over because its folder is there already, and none fails, at any moment of any
schedule in which packages begin in the order of the tree. -/
theorem C92_no_failure (ho : ∀ f, (env.ord f).Perm f) (hcol : Tar.NoCol env) (hs : Tar.Sane fs) (hh : Tar.Honest env fs)
    (h : Start env build pr pk g o fetch tar fs) (sched : List Nat) (hord : ListOrder (jobsFor o g fetch) sched) (n : Nat) :
    ((XRun.init fs).run env build (jobsFor o g fetch) sched).phase n ≠ .skipped ∧
    ((XRun.init fs).run env build (jobsFor o g fetch) sched).phase n ≠ .failed := by
  have hx := runinv_run ho hcol hs hh h sched hord
  cases hj : jobsFor o g fetch n with
  | some j =>
    have hjs : (jobsFor o g fetch n).isSome := by rw [hj]; rfl
    by_cases hin : n ∈ sched
    · rcases hx.begun n hjs hin with hp | ⟨hp, _⟩ <;> rw [hp] <;> exact ⟨fun h => (by cases h), fun h => (by cases h)⟩
    · rw [hx.waiting n hjs hin]; exact ⟨fun h => (by cases h), fun h => (by cases h)⟩
  | none =>
    have gen : ∀ l : List Nat, ((XRun.init fs).run env build (jobsFor o g fetch) l).phase n = .waiting := by
      intro l
      induction l using List.reverseRecOn with
      | nil => rfl
      | append_singleton l m ih =>
        rw [xrun_snoc]
        unfold XRun.step
        cases hm : jobsFor o g fetch m with
        | none => exact ih
        | some j =>
          have hne : n ≠ m := fun he => by rw [he, hm] at hj; cases hj
          simp only
          split
          · split
            · simp only [Tar.upd_ne _ _ hne]; exact ih
            · simp only [Tar.upd_ne _ _ hne]; exact ih
          · split
            · simp only [Tar.upd_ne _ _ hne]; exact ih
            · split <;> (simp only [Tar.upd_ne _ _ hne]; exact ih)
            · exact ih
          · exact ih
    rw [gen]
    exact ⟨fun h => (by cases h), fun h => (by cases h)⟩

/-- When all packages have been dealt with, what is below node_modules is exactly what the tree asks for: the files of each
package's tarball in its folder, and nothing else; the packages to be rebuilt are those with scripts or commands; and the cache's
index is as honest as it was. -/
theorem C92_installed (ho : ∀ f, (env.ord f).Perm f) (hcol : Tar.NoCol env) (hs : Tar.Sane fs) (hh : Tar.Honest env fs)
    (h : Start env build pr pk g o fetch tar fs) (sched : List Nat) (hord : ListOrder (jobsFor o g fetch) sched)
    (hend : ∀ i nd, i ≠ 0 → g.nodes[i]? = some nd →
      ∃ b, ((XRun.init fs).run env build (jobsFor o g fetch) sched).phase i = .extracted b) :
    Installed pk g (seen pr o.root ((XRun.init fs).run env build (jobsFor o g fetch) sched).runs.fs) ∧
    (∀ i nd, i ≠ 0 → g.nodes[i]? = some nd → ((XRun.init fs).run env build (jobsFor o g fetch) sched).phase i =
      .extracted (pk.scripts nd.pkg || !(pk.bins nd.pkg).isEmpty)) ∧
    Tar.Honest env ((XRun.init fs).run env build (jobsFor o g fetch) sched).runs.fs := by
  have hx := runinv_run ho hcol hs hh h sched hord
  have key : ∀ i nd, i ≠ 0 → g.nodes[i]? = some nd → ((XRun.init fs).run env build (jobsFor o g fetch) sched).phase i = .extracted (rebuildFor pk g i) ∧
      ∃ x, ((XRun.init fs).run env build (jobsFor o g fetch) sched).runs.pcs i = .done x := by
    intro i nd h0 hi
    obtain ⟨j, hj⟩ := jobsFor_of (o := o) (fetch := fetch) h0 hi
    have hjs : (jobsFor o g fetch i).isSome := by rw [hj]; rfl
    obtain ⟨b, hb⟩ := hend i nd h0 hi
    by_cases hin : i ∈ sched
    · rcases hx.begun i hjs hin with hp | hp
      · rw [hb] at hp; cases hp
      · exact hp
    · rw [hx.waiting i hjs hin] at hb; cases hb
  refine ⟨?_, fun i nd h0 hi => ?_, ?_⟩
  · rw [hx.runs]
    refine installed_of ho hcol hs hh h sched fun n hn => ?_
    obtain ⟨j, hj⟩ := Option.isSome_iff_exists.1 hn
    obtain ⟨h0, nd, hi, _, _⟩ := jobsFor_some (tar := tar) hj
    have := (key n nd h0 hi).2
    rw [hx.runs] at this
    exact this
  · rw [(key i nd h0 hi).1]
    unfold rebuildFor
    rw [hi]
  · rw [hx.runs]
    exact (Tar.C91_cache_partial env ho hcol fs hs hh _ _ (ready_of h).separate (ready_of h).files sched).2

/-- And it comes to that, if every package is given its turns. -/
theorem C92_ends (ho : ∀ f, (env.ord f).Perm f) (hcol : Tar.NoCol env) (hs : Tar.Sane fs) (hh : Tar.Honest env fs)
    (h : Start env build pr pk g o fetch tar fs) (s : Nat → Nat) (hord : ∀ m, ListOrder (jobsFor o g fetch) ((List.range m).map s))
    (hfair : ∀ i nd, i ≠ 0 → g.nodes[i]? = some nd → ∀ N, ∃ m, N ≤ m ∧ s m = i) :
    ∃ M, ∀ m, M ≤ m → ∀ i nd, i ≠ 0 → g.nodes[i]? = some nd →
      ∃ b, ((XRun.init fs).run env build (jobsFor o g fetch) ((List.range m).map s)).phase i = .extracted b := by
  have snoc : ∀ m, (List.range (m + 1)).map s = (List.range m).map s ++ [s m] := fun m => by
    rw [List.range_succ, List.map_append, List.map_singleton]
  have stay : ∀ i b m, ((XRun.init fs).run env build (jobsFor o g fetch) ((List.range m).map s)).phase i = .extracted b →
      ((XRun.init fs).run env build (jobsFor o g fetch) ((List.range (m + 1)).map s)).phase i = .extracted b := by
    intro i b m hp
    rw [snoc, xrun_snoc]
    unfold XRun.step
    cases jobsFor o g fetch (s m) with
    | none => exact hp
    | some j =>
      simp only
      by_cases he : i = s m
      · rw [← he, hp]; exact hp
      · split
        · split
          · simp only [Tar.upd_ne _ _ he]; exact hp
          · simp only [Tar.upd_ne _ _ he]; exact hp
        · split
          · simp only [Tar.upd_ne _ _ he]; exact hp
          · split <;> (simp only [Tar.upd_ne _ _ he]; exact hp)
          · exact hp
        · exact hp
  have one : ∀ i nd, i ≠ 0 → g.nodes[i]? = some nd → ∃ M, ∀ m, M ≤ m →
      ∃ b, ((XRun.init fs).run env build (jobsFor o g fetch) ((List.range m).map s)).phase i = .extracted b := by
    intro i nd h0 hi
    obtain ⟨j, hj⟩ := jobsFor_of (o := o) (fetch := fetch) h0 hi
    have hjs : (jobsFor o g fetch i).isSome := by rw [hj]; rfl
    obtain ⟨m0, hm0⟩ := Tar.C91_ends env (jobsFor o g fetch) fs s i j hj (hfair i nd h0 hi)
    obtain ⟨m1, hle1, hs1⟩ := hfair i nd h0 hi m0
    -- it is over at m1 too
    have hdone : ∀ m, m0 ≤ m → ∃ x, ((Tar.Runs.init fs).run env (jobsFor o g fetch) ((List.range m).map s)).pcs i = .done x := by
      intro m hm
      have hF := Tar.fine_run ho hcol (ready_of h) ((List.range m).map s) _ (fine_start hs hh h)
      have hend : (((Tar.Runs.init fs).run env (jobsFor o g fetch) ((List.range m).map s)).pcs i).ended = true := by
        induction m, hm using Nat.le_induction with
        | base => exact hm0
        | succ m hm ih =>
          have ih := ih (Tar.fine_run ho hcol (ready_of h) ((List.range m).map s) _ (fine_start hs hh h))
          rw [snoc, Tar.runs_snoc]
          unfold Tar.Runs.step
          cases hj' : jobsFor o g fetch (s m) with
          | none => exact ih
          | some j' =>
            simp only
            by_cases he : i = s m
            · rw [← he, Tar.upd_self]
              cases hpc : ((Tar.Runs.init fs).run env (jobsFor o g fetch) ((List.range m).map s)).pcs i <;> rw [hpc] at ih <;>
                first
                  | exact Bool.noConfusion ih
                  | rfl
            · rw [Tar.upd_ne _ _ he]; exact ih
      have hpc := hF.pc i j hj
      cases hx : ((Tar.Runs.init fs).run env (jobsFor o g fetch) ((List.range m).map s)).pcs i <;> rw [hx] at hend hpc <;>
        first
          | exact ⟨_, rfl⟩
          | exact hpc.elim
          | cases hend
    have base : ∃ b, ((XRun.init fs).run env build (jobsFor o g fetch) ((List.range (m1 + 1)).map s)).phase i = .extracted b := by
      have hx := runinv_run ho hcol hs hh h _ (hord m1)
      obtain ⟨x, hd⟩ := hdone m1 hle1
      rw [← hx.runs] at hd
      by_cases hin : i ∈ (List.range m1).map s
      · rcases hx.begun i hjs hin with hp | ⟨hp, _⟩
        · have hr := reads (build := build) ho hcol hs hh h (sched := (List.range m1).map s) hj (by rw [← hx.runs]; exact hd)
          rw [← hx.runs] at hr
          refine ⟨rebuildFor pk g i, ?_⟩
          rw [snoc, xrun_snoc, hs1]
          unfold XRun.step
          simp only [hj, hp, hd, hr, Tar.upd_self]
        · exact ⟨_, stay _ _ _ hp⟩
      · -- it has not begun, so it is not over
        exfalso
        have hpc : ∀ l : List Nat, i ∉ l → ((Tar.Runs.init fs).run env (jobsFor o g fetch) l).pcs i = .start := by
          intro l
          induction l using List.reverseRecOn with
          | nil => exact fun _ => rfl
          | append_singleton l m ih =>
            intro hni
            rw [Tar.runs_snoc]
            unfold Tar.Runs.step
            have hne : i ≠ m := fun he => hni (by simp [he])
            cases jobsFor o g fetch m with
            | none => exact ih (fun hc => hni (List.mem_append_left _ hc))
            | some j' =>
              simp only [Tar.upd_ne _ _ hne]
              exact ih (fun hc => hni (List.mem_append_left _ hc))
        rw [hx.runs, hpc _ hin] at hd
        cases hd
    refine ⟨m1 + 1, fun m hm => ?_⟩
    induction m, hm using Nat.le_induction with
    | base => exact base
    | succ m _ ih =>
      obtain ⟨b, hb⟩ := ih
      exact ⟨b, stay _ _ _ hb⟩
  have all : ∀ N, ∃ M, ∀ m, M ≤ m → ∀ i nd, i < N → i ≠ 0 → g.nodes[i]? = some nd →
      ∃ b, ((XRun.init fs).run env build (jobsFor o g fetch) ((List.range m).map s)).phase i = .extracted b := by
    intro N
    induction N with
    | zero => exact ⟨0, fun _ _ _ _ hlt => absurd hlt (Nat.not_lt_zero _)⟩
    | succ N ih =>
      obtain ⟨M, hM⟩ := ih
      by_cases hN : ∃ nd, N ≠ 0 ∧ g.nodes[N]? = some nd
      · obtain ⟨nd, h0, hi⟩ := hN
        obtain ⟨M', hM'⟩ := one N nd h0 hi
        refine ⟨max M M', fun m hm i nd' hlt h0' hi' => ?_⟩
        rcases Nat.lt_succ_iff_lt_or_eq.1 hlt with hl | rfl
        · exact hM m (le_trans (le_max_left _ _) hm) i nd' hl h0' hi'
        · exact hM' m (le_trans (le_max_right _ _) hm)
      · refine ⟨M, fun m hm i nd' hlt h0' hi' => ?_⟩
        rcases Nat.lt_succ_iff_lt_or_eq.1 hlt with hl | rfl
        · exact hM m hm i nd' hl h0' hi'
        · exact absurd ⟨nd', h0', hi'⟩ hN
  obtain ⟨M, hM⟩ := all g.nodes.length
  exact ⟨M, fun m hm i nd h0 hi => hM m hm i nd (by
    by_contra hge
    rw [List.getElem?_eq_none (by omega)] at hi
    cases hi) h0 hi⟩

end Hoisted

namespace Works
open Hoisted
variable {P S : Type} [DecidableEq S]
variable {env : Env Str P S} {lock : Option (LockTree Str P)} {nm : Str} {p0 : P} {m : Manifest Str} {root : Node Str P S} {s : RState Str P S}

/-- So a project works after a first installation, at this level too: resolved with responses in an orderly way, extracted at the
same time through the cache, every requirement finds a folder with a package that is what it asks for. -/
theorem C92_works_partial (hr : Node.new env.parse nm p0 m true = some root) (hq : OrderlyReach env lock root s) (hd : s.done = true)
    {pk : Pkgs P} (hp : Plain env lock m pk) (v : Iso.Env)
    {tenv : Tar.Env} {build : Bytes → Option Bool} {pr : Bytes → Bytes} {o : XOpts} {fetch : P → Option Tar.Integrity × Option (List Tar.Ev)}
    {tar : P → Bytes} {fs : Tar.FS} (ho : ∀ f, (tenv.ord f).Perm f) (hcol : Tar.NoCol tenv) (hs : Tar.Sane fs) (hh : Tar.Honest tenv fs)
    (h : Start tenv build pr pk s.graph o fetch tar fs) (sched : List Nat) (hord : ListOrder (jobsFor o s.graph fetch) sched)
    (hend : ∀ i nd, i ≠ 0 → s.graph.nodes[i]? = some nd →
      ∃ b, ((XRun.init fs).run tenv build (jobsFor o s.graph fetch) sched).phase i = .extracted b) :
    ProjectWorks env lock pk v (seen pr o.root ((XRun.init fs).run tenv build (jobsFor o s.graph fetch) sched).runs.fs) m :=
  C80_installed hr hq.toReach hd (C01_orderly_partial ⟨nm, p0, m, hr⟩ hq).1 hp (C92_installed ho hcol hs hh h sched hord hend).1

/-- The same for projects without version conflicts, whatever the order of responses. -/
theorem C92_works_agreed {w : Str → P × Manifest Str} (hr : Node.new env.parse nm p0 m true = some root) (ha : Agreed env lock m w)
    (hq : RReach env lock root s) (hd : s.done = true) {pk : Pkgs P} (hp : Plain env lock m pk) (v : Iso.Env)
    {tenv : Tar.Env} {build : Bytes → Option Bool} {pr : Bytes → Bytes} {o : XOpts} {fetch : P → Option Tar.Integrity × Option (List Tar.Ev)}
    {tar : P → Bytes} {fs : Tar.FS} (ho : ∀ f, (tenv.ord f).Perm f) (hcol : Tar.NoCol tenv) (hs : Tar.Sane fs) (hh : Tar.Honest tenv fs)
    (h : Start tenv build pr pk s.graph o fetch tar fs) (sched : List Nat) (hord : ListOrder (jobsFor o s.graph fetch) sched)
    (hend : ∀ i nd, i ≠ 0 → s.graph.nodes[i]? = some nd →
      ∃ b, ((XRun.init fs).run tenv build (jobsFor o s.graph fetch) sched).phase i = .extracted b) :
    ProjectWorks env lock pk v (seen pr o.root ((XRun.init fs).run tenv build (jobsFor o s.graph fetch) sched).runs.fs) m :=
  C80_installed hr hq hd (C76_flat hr hp.project.1 ha hq).2.2.2.2.2 hp (C92_installed ho hcol hs hh h sched hord hend).1

end Works
end Oro
