import Verif.Proofs.FurtherRun
import Verif.Props.InstallRun
/-
C95: installations into a node_modules in which there are packages already, down to the accesses to the file system and the cache.
-/

set_option linter.unusedSectionVars false

namespace Oro
namespace Hoisted

section
variable {env : Tar.Env} {build : Bytes → Option Bool} {jobs : Nat → Option Tar.Job} {tar : Nat → Bytes} {fs : Tar.FS}

/-- Whatever is installed, however it goes, and whatever was there before: if a package counts as extracted, then all its files are
there and are right, and whether it is to be rebuilt was read from the manifest in its folder. -/
theorem C95_extracted (ho : ∀ f, (env.ord f).Perm f) (hh : Tar.History env fs) (hp : Tar.Proper fs) (ha : Tar.Separate env jobs tar)
    (sched : List Nat) (n : Nat) (j : Tar.Job) (hj : jobs n = some j) (b : Bool)
    (hd : ((XRun.init fs).run env build jobs sched).phase n = .extracted b) :
    (∀ e ∈ (env.untar (tar n)).1, e.regular = true →
      ∃ c, Tar.Holds ((XRun.init fs).run env build jobs sched).runs.fs (Tar.place j.dir e) c ∧ env.xxh c = env.xxh e.content) ∧
    ∃ pre, pre <+: sched ∧ ∃ c, Tar.Holds ((XRun.init fs).run env build jobs pre).runs.fs (j.dir ++ [Tar.kPackageJson]) c ∧ build c = some b := by
  have hm := xrun_moments (env := env) (build := build) (fs := fs) sched n j hj
  rw [hd] at hm
  obtain ⟨⟨i, hi⟩, hpre⟩ := hm
  refine ⟨fun e he hr => ?_, hpre⟩
  obtain ⟨hs, hf⟩ := Tar.history_honest hh
  obtain ⟨l, hB⟩ := begun_run (build := build) ho hp hs hf ha sched
  obtain ⟨j', hj'⟩ := hB.begun n (by rw [hd]; rfl)
  have hjj := (absent_some.1 hj').1
  rw [hj] at hjj; cases hjj
  rw [hB.runs] at hi ⊢
  exact Tar.C91_done_partial env ho fs hh _ tar (absent_separate ha) (absent_vacant hp) l n j hj' i hi e he hr

/-- and everything else is as it was: only places of files of packages whose extraction was begun may have changed, and those
packages' folders were not there -/
theorem C95_others (ho : ∀ f, (env.ord f).Perm f) (hh : Tar.History env fs) (hp : Tar.Proper fs) (ha : Tar.Separate env jobs tar)
    (sched : List Nat) :
    (∀ p, (∀ n j, jobs n = some j → (((XRun.init fs).run env build jobs sched).phase n).begun = true →
        ∀ e ∈ (env.untar (tar n)).1, e.regular = true → Tar.place j.dir e ≠ p) →
      ((XRun.init fs).run env build jobs sched).runs.fs.files p = fs.files p ∧
      ∀ c, Tar.Holds fs p c → ∃ c', Tar.Holds ((XRun.init fs).run env build jobs sched).runs.fs p c' ∧ env.xxh c' = env.xxh c) ∧
    (∀ n j, jobs n = some j → (((XRun.init fs).run env build jobs sched).phase n).begun = true → fs.taken j.dir = false) ∧
    (∀ d, fs.dirs d = true → ((XRun.init fs).run env build jobs sched).runs.fs.dirs d = true) := by
  obtain ⟨hs, hf⟩ := Tar.history_honest hh
  obtain ⟨l, hB⟩ := begun_run (build := build) ho hp hs hf ha sched
  generalize hw : (XRun.init fs).run env build jobs sched = w at hB ⊢
  refine ⟨fun p hout => ?_, fun n j hj hb => ?_, fun d hd => ?_⟩
  · -- only those that have begun
    let now : Nat → Option Tar.Job := fun n => if (w.phase n).begun then absent jobs fs n else none
    have hnow : ∀ n j, now n = some j → (w.phase n).begun = true ∧ absent jobs fs n = some j := by
      intro n j h
      simp only [now] at h
      split at h
      · rename_i hb; exact ⟨hb, h⟩
      · cases h
    have hrun : w.runs = (Tar.Runs.init fs).run env now l := by
      rw [hB.runs]
      refine Tar.runs_congr (fun n hn => ?_) _
      simp only [now, hB.steps n hn, if_true]
    have hsep : Tar.Separate env now tar := by
      have h0 := absent_separate (fs := fs) ha
      exact ⟨fun n j hj => h0.fits n j (hnow n j hj).2, fun n j hj => h0.plain n j (hnow n j hj).2,
        fun n j hj => h0.distinct n j (hnow n j hj).2, fun n j hj n' j' hj' => h0.apart n j (hnow n j hj).2 n' j' (hnow n' j' hj').2⟩
    have inv := Tar.inv_run ho (fun h => h.elim) hsep l _
      (Tar.inv_init hs hf hsep (fun n j hj => absent_vacant hp n j (hnow n j hj).2))
    rw [← hrun] at inv
    have hfile : w.runs.fs.files p = fs.files p := inv.files p fun n j hj =>
      hout n j (absent_some.1 (hnow n j hj).2).1 (hnow n j hj).1
    refine ⟨hfile, fun c hc => ?_⟩
    obtain ⟨i, h1, h2⟩ := hc
    exact ⟨_, ⟨i, by rw [hfile]; exact h1, rfl⟩, by rw [inv.content i (hs.1 _ _ h1), h2]⟩
  · obtain ⟨j', hj'⟩ := hB.begun n hb
    obtain ⟨h1, h2⟩ := absent_some.1 hj'
    rw [hj] at h1; cases h1
    exact h2
  · rw [hB.runs]
    exact (Tar.housed_run ho l _ (Tar.housed_init (jobs := absent jobs fs) fs)).up d hd

/-- A package is passed over only if its folder was there when it was looked at; it counts as failed only if its extraction failed
or its manifest could not be read. -/
theorem C95_outcomes (sched : List Nat) (n : Nat) (j : Tar.Job) (hj : jobs n = some j) :
    (((XRun.init fs).run env build jobs sched).phase n = .skipped →
      ∃ pre, pre <+: sched ∧ ((XRun.init fs).run env build jobs pre).runs.fs.taken j.dir = true) ∧
    (((XRun.init fs).run env build jobs sched).phase n = .failed →
      ((XRun.init fs).run env build jobs sched).runs.pcs n = .failed ∨
      ∃ pre, pre <+: sched ∧ ∀ c, Tar.Holds ((XRun.init fs).run env build jobs pre).runs.fs (j.dir ++ [Tar.kPackageJson]) c → build c = none) := by
  have hm := xrun_moments (env := env) (build := build) (fs := fs) sched n j hj
  refine ⟨fun h => ?_, fun h => ?_⟩ <;> (rw [h] at hm; exact hm)

end

variable {P S : Type} [DecidableEq S]
variable {env : Tar.Env} {build : Bytes → Option Bool} {pr : Bytes → Bytes} {pk : Pkgs P} {g : Graph Str P S} {o : XOpts}
  {fetch : P → Option Tar.Integrity × Option (List Tar.Ev)} {tar : P → Bytes} {fs : Tar.FS}

/-- In such an installation no package fails, and exactly those are passed over that were there before. -/
theorem C95_no_failure (ho : ∀ f, (env.ord f).Perm f) (hcol : Tar.NoCol env) (hs : Tar.Sane fs) (hh : Tar.Honest env fs)
    (h : Further env build pr pk g o fetch tar fs) (sched : List Nat) (hord : ListOrder (jobsFor o g fetch) sched) (n : Nat) (nd : Node Str P S)
    (h0 : n ≠ 0) (hn : g.nodes[n]? = some nd) :
    ((XRun.init fs).run env build (jobsFor o g fetch) sched).phase n ≠ .failed ∧
    (((XRun.init fs).run env build (jobsFor o g fetch) sched).phase n = .skipped → seen pr o.root fs (targetDir g n) ≠ none) ∧
    (seen pr o.root fs (targetDir g n) ≠ none → n ∈ sched → ((XRun.init fs).run env build (jobsFor o g fetch) sched).phase n = .skipped) := by
  have hx := furtherinv_run ho hcol hs hh h sched hord
  obtain ⟨j, hj⟩ := jobsFor_of (o := o) (fetch := fetch) h0 hn
  have hjs : (jobsFor o g fetch n).isSome := by rw [hj]; rfl
  have hseen : seen pr o.root fs (targetDir g n) ≠ none ↔ fs.taken j.dir = true := by
    rw [Ne, seen_taken, ← job_dir hj, Bool.not_eq_false]
  rw [hseen]
  by_cases hin : n ∈ sched
  · cases htk : fs.taken j.dir with
    | true =>
      rw [hx.kept n j hj htk hin]
      exact ⟨fun h => (by cases h), fun _ => rfl, fun _ _ => rfl⟩
    | false =>
      rcases hx.begun n j (absent_some.2 ⟨hj, htk⟩) hin with hp | ⟨hp, _⟩ <;> rw [hp] <;>
        exact ⟨fun h => (by cases h), fun h => (by cases h), fun h => (by cases h)⟩
  · rw [hx.waiting n hjs hin]
    exact ⟨fun h => (by cases h), fun h => (by cases h), fun _ h => absurd h hin⟩

/-- When all packages have been dealt with, what is below node_modules (commands apart) is exactly what the tree asks for; of the
packages that were not there, those with scripts or commands are to be rebuilt; and the cache's index is as honest as it was. -/
theorem C95_installed (ho : ∀ f, (env.ord f).Perm f) (hcol : Tar.NoCol env) (hs : Tar.Sane fs) (hh : Tar.Honest env fs)
    (h : Further env build pr pk g o fetch tar fs) (sched : List Nat) (hord : ListOrder (jobsFor o g fetch) sched)
    (hend : ∀ i nd, i ≠ 0 → g.nodes[i]? = some nd → ((XRun.init fs).run env build (jobsFor o g fetch) sched).phase i = .skipped ∨
      ∃ b, ((XRun.init fs).run env build (jobsFor o g fetch) sched).phase i = .extracted b) :
    Installed pk g (seen pr o.root ((XRun.init fs).run env build (jobsFor o g fetch) sched).runs.fs) ∧
    (∀ i nd, i ≠ 0 → g.nodes[i]? = some nd → seen pr o.root fs (targetDir g i) = none →
      ((XRun.init fs).run env build (jobsFor o g fetch) sched).phase i = .extracted (pk.scripts nd.pkg || !(pk.bins nd.pkg).isEmpty)) ∧
    Tar.Honest env ((XRun.init fs).run env build (jobsFor o g fetch) sched).runs.fs := by
  have hx := furtherinv_run ho hcol hs hh h sched hord
  have key : ∀ i j, absent (jobsFor o g fetch) fs i = some j →
      ((XRun.init fs).run env build (jobsFor o g fetch) sched).phase i = .extracted (rebuildFor pk g i) ∧
      ∃ x, ((XRun.init fs).run env build (jobsFor o g fetch) sched).runs.pcs i = .done x := by
    intro i j hj
    obtain ⟨h0, nd, hi, _, _⟩ := jobsFor_some (tar := tar) (absent_some.1 hj).1
    have hjs : (jobsFor o g fetch i).isSome := by rw [(absent_some.1 hj).1]; rfl
    by_cases hin : i ∈ sched
    · rcases hx.begun i j hj hin with hp | hp
      · rcases hend i nd h0 hi with hb | ⟨b, hb⟩ <;> (rw [hb] at hp; cases hp)
      · exact hp
    · have hp := hx.waiting i hjs hin
      rcases hend i nd h0 hi with hb | ⟨b, hb⟩ <;> (rw [hb] at hp; cases hp)
  refine ⟨?_, fun i nd h0 hi hnone => ?_, ?_⟩
  · rw [hx.runs]
    refine further_installed ho hcol hs hh h sched fun n j hj => ?_
    have := (key n j hj).2
    rw [hx.runs] at this
    exact this
  · obtain ⟨j, hj⟩ := jobsFor_of (o := o) (fetch := fetch) h0 hi
    rw [seen_taken, ← job_dir hj] at hnone
    rw [(key i j (absent_some.2 ⟨hj, hnone⟩)).1]
    unfold rebuildFor
    rw [hi]
  · rw [hx.runs]
    exact (Tar.C91_cache_partial env ho hcol fs hs hh _ _ (further_ready h).separate (further_ready h).files sched).2

/-- And it comes to that, if every package is given its turns. -/
theorem C95_ends (ho : ∀ f, (env.ord f).Perm f) (hcol : Tar.NoCol env) (hs : Tar.Sane fs) (hh : Tar.Honest env fs)
    (h : Further env build pr pk g o fetch tar fs) (s : Nat → Nat) (hord : ∀ m, ListOrder (jobsFor o g fetch) ((List.range m).map s))
    (hfair : ∀ i nd, i ≠ 0 → g.nodes[i]? = some nd → ∀ N, ∃ m, N ≤ m ∧ s m = i) :
    ∃ M, ∀ m, M ≤ m → ∀ i nd, i ≠ 0 → g.nodes[i]? = some nd →
      ((XRun.init fs).run env build (jobsFor o g fetch) ((List.range m).map s)).phase i = .skipped ∨
      ∃ b, ((XRun.init fs).run env build (jobsFor o g fetch) ((List.range m).map s)).phase i = .extracted b := by
  have hR := further_ready h
  have snoc : ∀ m, (List.range (m + 1)).map s = (List.range m).map s ++ [s m] := fun m => by
    rw [List.range_succ, List.map_append, List.map_singleton]
  have one : ∀ i nd, i ≠ 0 → g.nodes[i]? = some nd → ∃ M, ∀ m, M ≤ m →
      ((XRun.init fs).run env build (jobsFor o g fetch) ((List.range m).map s)).phase i = .skipped ∨
      ∃ b, ((XRun.init fs).run env build (jobsFor o g fetch) ((List.range m).map s)).phase i = .extracted b := by
    intro i nd h0 hi
    obtain ⟨j, hj⟩ := jobsFor_of (o := o) (fetch := fetch) h0 hi
    have hjs : (jobsFor o g fetch i).isSome := by rw [hj]; rfl
    have hmem : ∀ {m1 m : Nat}, s m1 = i → m1 + 1 ≤ m → i ∈ (List.range m).map s := fun h1 h2 =>
      List.mem_map.2 ⟨_, List.mem_range.2 h2, h1⟩
    cases htk : fs.taken j.dir with
    | true =>
      obtain ⟨m1, _, hs1⟩ := hfair i nd h0 hi 0
      exact ⟨m1 + 1, fun m hm => .inl ((furtherinv_run ho hcol hs hh h _ (hord m)).kept i j hj htk (hmem hs1 hm))⟩
    | false =>
      have habs : absent (jobsFor o g fetch) fs i = some j := absent_some.2 ⟨hj, htk⟩
      obtain ⟨m0, hm0⟩ := Tar.C91_ends env (absent (jobsFor o g fetch) fs) fs s i j habs (hfair i nd h0 hi)
      have hdone : ∀ m, m0 ≤ m → ∃ x, ((Tar.Runs.init fs).run env (absent (jobsFor o g fetch) fs) ((List.range m).map s)).pcs i = .done x := by
        intro m hm
        have hF := Tar.fine_run ho hcol hR ((List.range m).map s) _ (fine_further hs hh h)
        have hend : (((Tar.Runs.init fs).run env (absent (jobsFor o g fetch) fs) ((List.range m).map s)).pcs i).ended = true := by
          induction m, hm using Nat.le_induction with
          | base => exact hm0
          | succ m hm ih =>
            have ih := ih (Tar.fine_run ho hcol hR ((List.range m).map s) _ (fine_further hs hh h))
            rw [snoc, Tar.runs_snoc]
            unfold Tar.Runs.step
            cases hj' : absent (jobsFor o g fetch) fs (s m) with
            | none => exact ih
            | some j' =>
              simp only
              by_cases he : i = s m
              · rw [← he, Tar.upd_self]
                cases hpc : ((Tar.Runs.init fs).run env (absent (jobsFor o g fetch) fs) ((List.range m).map s)).pcs i <;> rw [hpc] at ih <;>
                  first
                    | exact Bool.noConfusion ih
                    | rfl
              · rw [Tar.upd_ne _ _ he]; exact ih
        have hpc := hF.pc i j habs
        cases hx : ((Tar.Runs.init fs).run env (absent (jobsFor o g fetch) fs) ((List.range m).map s)).pcs i <;> rw [hx] at hend hpc <;>
          first
            | exact ⟨_, rfl⟩
            | exact hpc.elim
            | cases hend
      obtain ⟨m1, hle1, hs1⟩ := hfair i nd h0 hi m0
      obtain ⟨m2, hle2, hs2⟩ := hfair i nd h0 hi (m1 + 1)
      have base : ∃ b, ((XRun.init fs).run env build (jobsFor o g fetch) ((List.range (m2 + 1)).map s)).phase i = .extracted b := by
        have hx := furtherinv_run ho hcol hs hh h _ (hord m2)
        obtain ⟨x, hd⟩ := hdone m2 (by omega)
        rw [← hx.runs] at hd
        have hx' := furtherinv_run ho hcol hs hh h _ (hord (m2 + 1))
        rcases hx.begun i j habs (hmem hs1 (by omega)) with hp | ⟨hp, _⟩
        · have hr := further_reads (build := build) ho hcol hs hh h (sched := (List.range m2).map s) habs (by rw [← hx.runs]; exact hd)
          rw [← hx.runs] at hr
          refine ⟨rebuildFor pk g i, ?_⟩
          rw [snoc, xrun_snoc, hs2]
          unfold XRun.step
          simp only [hj, hp, hd, hr, Tar.upd_self]
        · refine ⟨rebuildFor pk g i, ?_⟩
          rw [snoc, xrun_snoc, hs2]
          unfold XRun.step
          simp only [hj, hp]
      refine ⟨m2 + 1, fun m hm => .inr ?_⟩
      induction m, hm using Nat.le_induction with
      | base => exact base
      | succ m _ ih =>
        obtain ⟨b, hb⟩ := ih
        refine ⟨b, ?_⟩
        rw [snoc, xrun_snoc]
        generalize (XRun.init fs).run env build (jobsFor o g fetch) ((List.range m).map s) = w at hb ⊢
        unfold XRun.step
        cases jobsFor o g fetch (s m) with
        | none => exact hb
        | some j' =>
          simp only
          by_cases he : i = s m
          · rw [← he, hb]; exact hb
          · repeat' split
            all_goals first | exact hb | (simp only [Tar.upd_ne _ _ he]; exact hb)
  have all : ∀ N, ∃ M, ∀ m, M ≤ m → ∀ i nd, i < N → i ≠ 0 → g.nodes[i]? = some nd →
      ((XRun.init fs).run env build (jobsFor o g fetch) ((List.range m).map s)).phase i = .skipped ∨
      ∃ b, ((XRun.init fs).run env build (jobsFor o g fetch) ((List.range m).map s)).phase i = .extracted b := by
    intro N
    induction N with
    | zero => exact ⟨0, fun _ _ _ _ hlt => absurd hlt (Nat.not_lt_zero _)⟩
    | succ N ih =>
      obtain ⟨M, hM⟩ := ih
      by_cases hN : ∃ nd, N ≠ 0 ∧ g.nodes[N]? = some nd
      · obtain ⟨nd, h0, hi⟩ := hN
        obtain ⟨M', hM'⟩ := one N nd h0 hi
        refine ⟨max M M', fun m hm i nd' hlt h0' hi' => ?_⟩
        rcases Nat.lt_succ_iff_lt_or_eq.1 hlt with hl | rfl
        · exact hM m (le_trans (le_max_left _ _) hm) i nd' hl h0' hi'
        · exact hM' m (le_trans (le_max_right _ _) hm)
      · refine ⟨M, fun m hm i nd' hlt h0' hi' => ?_⟩
        rcases Nat.lt_succ_iff_lt_or_eq.1 hlt with hl | rfl
        · exact hM m hm i nd' hl h0' hi'
        · exact absurd ⟨nd', h0', hi'⟩ hN
  obtain ⟨M, hM⟩ := all g.nodes.length
  exact ⟨M, fun m hm i nd h0 hi => hM m hm i nd (by
    by_contra hge
    rw [List.getElem?_eq_none (by omega)] at hi
    cases hi) h0 hi⟩

end Hoisted
end Oro
