import Verif.Proofs.TarHoused
import Verif.Proofs.Hoisted
import Verif.Proofs.HoistedBins
import Verif.Spec.InstallRun
/-
The extractions of a hoisted installation.
-/

set_option linter.unusedSectionVars false

namespace Oro
namespace Hoisted
variable {P S : Type} [DecidableEq S]

/-- the tarball of each package -/
def tarFor (g : Graph Str P S) (tar : P → Bytes) (i : Nat) : Bytes := match g.nodes[i]? with
  | some nd => tar nd.pkg
  | none => []

section
variable {env : Tar.Env} {build : Bytes → Option Bool} {pr : Bytes → Bytes} {pk : Pkgs P} {g : Graph Str P S} {o : XOpts}
  {fetch : P → Option Tar.Integrity × Option (List Tar.Ev)} {tar : P → Bytes} {fs : Tar.FS}

theorem jobsFor_some {i : Nat} {j : Tar.Job} (h : jobsFor o g fetch i = some j) :
    i ≠ 0 ∧ ∃ nd, g.nodes[i]? = some nd ∧ tarFor g tar i = tar nd.pkg ∧ j.dir = o.root ++ nmWord :: targetDir g i := by
  unfold jobsFor at h
  split at h
  · cases h
  · rename_i h0
    rw [Option.map_eq_some_iff] at h
    obtain ⟨nd, hn, rfl⟩ := h
    exact ⟨h0, nd, hn, by unfold tarFor; rw [hn], rfl⟩

theorem jobsFor_of {i : Nat} {nd : Node Str P S} (h0 : i ≠ 0) (hi : g.nodes[i]? = some nd) : ∃ j, jobsFor o g fetch i = some j := by
  unfold jobsFor
  rw [if_neg h0, hi]
  exact ⟨_, rfl⟩

theorem located_of (hg : Installable pk g) {i : Nat} {nd : Node Str P S} (hi : g.nodes[i]? = some nd) : ∃ π, LocatedAt g i π :=
  ⟨_, (locatedAt_iff hg.tree (ord_of hg)).2 ⟨⟨nd, hi⟩, rfl⟩⟩

/-- where a package goes -/
theorem job_folder (hg : Installable pk g) {i : Nat} {j : Tar.Job} (h : jobsFor o g fetch i = some j) {π : List Str} (hl : LocatedAt g i π) :
    j.dir = o.root ++ folder π := by
  obtain ⟨h0, nd, _, _, hd⟩ := jobsFor_some (tar := fun _ => []) h
  rw [hd, target_folder hg.tree (ord_of hg) h0 hl]

theorem target_ne_nil (hg : Installable pk g) {i : Nat} {nd : Node Str P S} (h0 : i ≠ 0) (hi : g.nodes[i]? = some nd) : targetDir g i ≠ [] := by
  intro h
  obtain ⟨π, hl⟩ := located_of hg hi
  have h1 := target_folder hg.tree (ord_of hg) h0 hl
  rw [h] at h1
  cases π with
  | nil => exact h0 (locatedAt_nil hl)
  | cons n π =>
    rw [folder_cons] at h1
    simp only [List.cons.injEq, true_and] at h1
    exact segs_ne_nil (located_inst hg hl n (by simp)).1 (List.append_eq_nil_iff.1 h1.symm).1

/-- the file's path in the package -/
theorem tail_names {es : List Tar.Entry} (hp : Tar.Plain es) {e : Tar.Entry} (he : e ∈ es) (hr : e.regular = true) (dir : Loc) :
    ∃ r : Loc, (RPath.components e.header).tail = r.map .normal ∧ Tar.place dir e = dir ++ r :=
  Tar.goTo_append dir _ (hp e he hr)

theorem map_normal_inj {a b : Loc} (h : a.map Comp.normal = b.map Comp.normal) : a = b := by
  induction a generalizing b with
  | nil => cases b with
    | nil => rfl
    | cons _ _ => cases h
  | cons x a ih => cases b with
    | nil => cases h
    | cons y b =>
      simp only [List.map_cons, List.cons.injEq, Comp.normal.injEq] at h
      rw [h.1, ih h.2]

theorem kNodeModules_eq : Tar.kNodeModules = nmWord := by decide +kernel

theorem laid_of (hg : Installable pk g) : Tar.Laid (jobsFor o g fetch) := by
  intro n j hj n' j' hj' hne
  obtain ⟨h0, nd, hn, _, _⟩ := jobsFor_some (tar := fun _ => []) hj
  obtain ⟨h0', nd', hn', _, _⟩ := jobsFor_some (tar := fun _ => []) hj'
  obtain ⟨π, hl⟩ := located_of hg hn
  obtain ⟨ρ, hl'⟩ := located_of hg hn'
  rw [job_folder hg hj hl, job_folder hg hj' hl']
  have hdiff : π ≠ ρ := fun h => hne (locatedAt_inj hg.tree hl (h ▸ hl'))
  constructor
  · intro h
    have h1 : folder π ++ [] = folder ρ ++ [] := by simpa using h
    exact hdiff (folder_inj (located_names hg hl) (located_names hg hl') h1 (by simp) (by simp)).1
  · intro h
    unfold Tar.Inside at h ⊢
    rw [List.prefix_append_right_inj] at h
    rw [List.append_assoc, List.prefix_append_right_inj]
    obtain ⟨y, hy⟩ := h
    obtain ⟨σ, rfl, rfl⟩ := folder_prefix (located_names hg hl) (located_names hg hl') hy
    cases σ with
    | nil => exact absurd (by simp) hdiff
    | cons m σ =>
      rw [folder_append, folder_cons]
      rw [kNodeModules_eq]
      exact ⟨nameSegs m ++ folder σ, by simp⟩

theorem inside_target {root t p : Loc} (h : Tar.Inside (root ++ nmWord :: t) p) : ∃ r, p = root ++ nmWord :: (t ++ r) := by
  obtain ⟨r, rfl⟩ := h
  exact ⟨r, by simp⟩

theorem ready_of (h : Start env build pr pk g o fetch tar fs) : Tar.Ready env (jobsFor o g fetch) (tarFor g tar) fs := by
  have hg := h.tree
  have ob : ∀ n j, jobsFor o g fetch n = some j → Obtainable env j (tarFor g tar n) fs := by
    intro n j hj
    obtain ⟨h0, nd, hn, ht, _⟩ := jobsFor_some (tar := tar) hj
    rw [ht]
    exact h.packages n nd j h0 hn hj
  refine ⟨laid_of hg, ?_, ?_, ?_, ?_, fun n j hj => (ob n j hj).fits, fun n j hj => (ob n j hj).complete,
    fun n j hj => (ob n j hj).plain, ?_, fun n j hj => (ob n j hj).sound, fun n j hj => (ob n j hj).served,
    fun n j hj => (ob n j hj).cached⟩
  · intro n j hj hx
    obtain ⟨_, nd, _, _, hd⟩ := jobsFor_some (tar := tar) hj
    rw [hd] at hx
    simp at hx
  · intro n j hj p hp
    obtain ⟨h0, nd, hn, _, hd⟩ := jobsFor_some (tar := tar) hj
    rw [hd] at hp
    obtain ⟨r, rfl⟩ := inside_target hp
    exact (h.bare.empty _ (by simp [target_ne_nil hg h0 hn])).1
  · intro n j hj q hq
    obtain ⟨h0, nd, hn, _, hd⟩ := jobsFor_some (tar := tar) hj
    rw [hd, show o.root ++ nmWord :: targetDir g n = (o.root ++ [nmWord]) ++ targetDir g n by simp] at hq
    rcases List.prefix_or_prefix_of_prefix hq (List.prefix_append _ _) with hx | ⟨r, rfl⟩
    · exact h.bare.above q hx
    · by_cases hr : r = []
      · subst hr; exact h.bare.above _ (by simp)
      · rw [List.append_assoc]; exact (h.bare.empty r hr).1
  · intro n j hj d hp _
    obtain ⟨h0, nd, hn, _, hd⟩ := jobsFor_some (tar := tar) hj
    rw [hd] at hp
    obtain ⟨r, rfl⟩ := inside_target hp
    exact (h.bare.empty _ (by simp [target_ne_nil hg h0 hn])).2
  · intro n j hj e he hr hx
    obtain ⟨h0, nd, hn, ht, _⟩ := jobsFor_some (tar := tar) hj
    obtain ⟨r, h1, _⟩ := tail_names (ob n j hj).plain he hr []
    rw [h1, List.head?_map] at hx
    cases r with
    | nil => cases hx
    | cons x r =>
      simp only [List.head?_cons, Option.map_some, Option.some.injEq, Comp.normal.injEq] at hx
      subst hx
      have hb := hg.bundled n nd r h0 hn
      rw [ht] at he
      have := (h.packed n nd h0 hn (nmWord :: r) (.file (pr e.content))).2 (.inl ⟨e, he, hr, h1, rfl⟩)
      rw [hb] at this
      cases this

end
end Hoisted

namespace Tar

theorem runs_snoc (env : Env) (jobs : Nat → Option Job) (w : Runs) (l : List Nat) (n : Nat) :
    w.run env jobs (l ++ [n]) = (w.run env jobs l).step env jobs n := by
  simp [Runs.run]

/-- the folders made by a step -/
theorem fine_gives {env : Env} {jobs tar o w n j} (ho : ∀ f, (env.ord f).Perm f) (hcol : NoCol env) (h : Ready env jobs tar o)
    (hF : Fine env jobs tar o w) (hj : jobs n = some j) : Gives env j (env.untar (tar n)).1 w.fs (j.step env (w.pcs n) w.fs).2 := by
  have hP := h.place hj
  have hst := step_ok ho (fun _ => hcol) (h.separate.fits n j hj) (h.plain n j hj) (h.separate.distinct n j hj) hF.inv.sane
    (hF.inv.right n j hj) hF.inv.honest (hF.inv.pc n j hj)
  have hnd : ∀ e ∈ (env.untar (tar n)).1, e.regular = true → w.fs.dirs (Tar.place j.dir e) = false := by
    intro e he hr
    cases hx : w.fs.dirs (Tar.place j.dir e) with
    | false => rfl
    | true =>
      obtain ⟨e', he', hr', hp⟩ := hF.dirs n j hj _ (hP.own he hr).1 (hP.own he hr).2 hx
      exact (hP.not_within he hr he' hr' hp).elim
  have hnf : ∀ e ∈ (env.untar (tar n)).1, e.regular = true → ∀ q, q <+: (Tar.place j.dir e).dropLast → w.fs.files q = none := by
    intro e he hr q hq
    rcases List.prefix_or_prefix_of_prefix hq (hP.parent he hr).1.1 with hx | hx
    · exact no_file h hF.inv hj (.inr hx)
    · refine no_file h hF.inv hj (.inl ⟨own_between (hP.parent he hr).1 hq hx, fun e' he' hr' hpe => ?_⟩)
      exact hP.not_within he' hr' he hr (by rw [hpe]; exact hq)
  exact (step_fine ho hcol hP (h.fits n j hj) (h.complete n j hj) hF.inv.sane (hF.inv.right n j hj) hst
    (hF.inv.pc n j hj) (hF.pc n j hj) (fun q hq => no_file h hF.inv hj (.inr hq)) hnf hnd (hF.index n j hj)).2

/-- folders are only made for extractions that have begun -/
theorem sprung_run {env : Env} {jobs tar o} (ho : ∀ f, (env.ord f).Perm f) (hcol : NoCol env) (h : Ready env jobs tar o)
    (hF : Fine env jobs tar o (Runs.init o)) (sched : List Nat) (d : Loc) (hd : ((Runs.init o).run env jobs sched).fs.dirs d = true) :
    o.dirs d = true ∨ ∃ n ∈ sched, ∃ j, jobs n = some j ∧ (d <+: j.dir ∨ ∃ e ∈ (env.untar (tar n)).1, e.regular = true ∧
      d <+: (place j.dir e).dropLast) := by
  induction sched using List.reverseRecOn with
  | nil => exact .inl hd
  | append_singleton l n ih =>
    rw [runs_snoc] at hd
    have again : ((Runs.init o).run env jobs l).fs.dirs d = true → o.dirs d = true ∨ ∃ n' ∈ l ++ [n], ∃ j, jobs n' = some j ∧
        (d <+: j.dir ∨ ∃ e ∈ (env.untar (tar n')).1, e.regular = true ∧ d <+: (place j.dir e).dropLast) := by
      intro hx
      rcases ih hx with hx | ⟨n', h1, h2⟩
      · exact .inl hx
      · exact .inr ⟨n', List.mem_append_left _ h1, h2⟩
    unfold Runs.step at hd
    cases hj : jobs n with
    | none => rw [hj] at hd; exact again hd
    | some j =>
      simp only [hj] at hd
      rcases (fine_gives ho hcol h (fine_run ho hcol h l _ hF) hj).new d hd with hx | hx
      · exact again hx
      · exact .inr ⟨n, by simp, j, hj, hx⟩

end Tar

namespace Hoisted
section
variable {P S : Type} [DecidableEq S]
variable {env : Tar.Env} {build : Bytes → Option Bool} {pr : Bytes → Bytes} {pk : Pkgs P} {g : Graph Str P S} {o : XOpts}
  {fetch : P → Option Tar.Integrity × Option (List Tar.Ev)} {tar : P → Bytes} {fs : Tar.FS}

theorem fine_start (hs : Tar.Sane fs) (hh : Tar.Honest env fs) (h : Start env build pr pk g o fetch tar fs) :
    Tar.Fine env (jobsFor o g fetch) (tarFor g tar) fs (.init fs) := Tar.fine_init hs (Tar.honest_weak hh) (ready_of h)

/-- what is to become of a package -/
def rebuildFor (pk : Pkgs P) (g : Graph Str P S) (i : Nat) : Bool := match g.nodes[i]? with
  | some nd => pk.scripts nd.pkg || !(pk.bins nd.pkg).isEmpty
  | none => false

/-- the folder of a package that has not begun is not there -/
theorem not_taken (ho : ∀ f, (env.ord f).Perm f) (hcol : Tar.NoCol env) (hs : Tar.Sane fs) (hh : Tar.Honest env fs)
    (h : Start env build pr pk g o fetch tar fs) {sched : List Nat} {n : Nat} {j : Tar.Job} (hj : jobsFor o g fetch n = some j)
    (hlt : ∀ m ∈ sched, (jobsFor o g fetch m).isSome → m < n) :
    ((Tar.Runs.init fs).run env (jobsFor o g fetch) sched).fs.taken j.dir = false := by
  have hR := ready_of h
  have hF0 := fine_start hs hh h
  have hF := Tar.fine_run ho hcol hR sched _ hF0
  obtain ⟨h0, nd, hn, _, hd⟩ := jobsFor_some (tar := tar) hj
  obtain ⟨π, hl⟩ := located_of h.tree hn
  unfold Tar.FS.taken
  rw [Tar.no_file hR hF.inv hj (.inr (List.prefix_refl _))]
  cases hx : ((Tar.Runs.init fs).run env (jobsFor o g fetch) sched).fs.dirs j.dir with
  | false => rfl
  | true =>
    exfalso
    rcases Tar.sprung_run ho hcol hR hF0 sched _ hx with hx | ⟨m, hm, j', hj', hx⟩
    · rw [hd, (h.bare.empty _ (target_ne_nil h.tree h0 hn)).2] at hx
      cases hx
    · have hmn : m < n := hlt m hm (by rw [hj']; rfl)
      obtain ⟨h0', nd', hn', _, _⟩ := jobsFor_some (tar := tar) hj'
      obtain ⟨ρ, hl'⟩ := located_of h.tree hn'
      have up : ¬ j.dir <+: j'.dir := by
        intro hp
        rw [job_folder h.tree hj hl, job_folder h.tree hj' hl', List.prefix_append_right_inj] at hp
        have := le_of_folder_prefix h.tree hl hl' hp
        omega
      rcases hx with hx | ⟨e, he, hr, hx⟩
      · exact up hx
      · have hP := (hR.place hj').parent he hr
        rcases List.prefix_or_prefix_of_prefix hx hP.1.1 with hy | hy
        · exact up hy
        · exact Tar.own_disjoint hR.laid hj hj' (by omega) (Tar.own_self j) (Tar.own_between hP.1 hx hy)

/-- the manifest of an extracted package can be read -/
theorem reads (ho : ∀ f, (env.ord f).Perm f) (hcol : Tar.NoCol env) (hs : Tar.Sane fs) (hh : Tar.Honest env fs)
    (h : Start env build pr pk g o fetch tar fs) {sched : List Nat} {n : Nat} {j : Tar.Job} (hj : jobsFor o g fetch n = some j) {i : Tar.Integrity}
    (hd : ((Tar.Runs.init fs).run env (jobsFor o g fetch) sched).pcs n = .done i) :
    ((((Tar.Runs.init fs).run env (jobsFor o g fetch) sched).fs.files (j.dir ++ [Tar.kPackageJson])).bind fun i =>
      build (((Tar.Runs.init fs).run env (jobsFor o g fetch) sched).fs.content i)) = some (rebuildFor pk g n) := by
  have hF := Tar.fine_run ho hcol (ready_of h) sched _ (fine_start hs hh h)
  obtain ⟨h0, nd, hn, ht, _⟩ := jobsFor_some (tar := tar) hj
  obtain ⟨f, hf, hr, hp, hb⟩ := h.built n nd h0 hn
  rw [← ht] at hf
  have hpc := hF.inv.pc n j hj
  rw [hd] at hpc
  have hplace : Tar.place j.dir f = j.dir ++ [Tar.kPackageJson] := by
    obtain ⟨r, h1, h2⟩ := tail_names ((ready_of h).plain n j hj) hf hr j.dir
    rw [h1] at hp
    rw [h2, show r = [Tar.kPackageJson] from map_normal_inj hp]
  obtain ⟨k, hk⟩ := Option.isSome_iff_exists.1 (hpc f hf hr)
  have hx := hF.inv.right n j hj f hf hr k hk
  rw [hplace] at hk
  rw [hk]
  simp only [Option.bind_some]
  rw [h.reading _ _ hx, hb]
  unfold rebuildFor
  rw [hn]

/-- where an installation stands -/
structure RunInv (env : Tar.Env) (pk : Pkgs P) (g : Graph Str P S) (o : XOpts) (fetch : P → Option Tar.Integrity × Option (List Tar.Ev)) (fs : Tar.FS)
    (sched : List Nat) (x : XRun) : Prop where
  runs : x.runs = (Tar.Runs.init fs).run env (jobsFor o g fetch) sched
  waiting : ∀ n, (jobsFor o g fetch n).isSome → n ∉ sched → x.phase n = .waiting
  begun : ∀ n, (jobsFor o g fetch n).isSome → n ∈ sched →
    x.phase n = .extracting ∨ (x.phase n = .extracted (rebuildFor pk g n) ∧ ∃ i, x.runs.pcs n = .done i)

theorem upd_same {α β} [DecidableEq α] (f : α → β) (a : α) : Tar.upd f a (f a) = f := by
  funext b
  simp only [Tar.upd]
  split
  · rename_i h; rw [h]
  · rfl

theorem runs_idle {w : Tar.Runs} {jobs : Nat → Option Tar.Job} {n : Nat} {i : Tar.Integrity} (h : w.pcs n = .done i) : w.step env jobs n = w := by
  unfold Tar.Runs.step
  cases jobs n with
  | none => rfl
  | some j =>
    simp only [h, Tar.Job.step]
    rw [← h, upd_same]

theorem runinv_step (ho : ∀ f, (env.ord f).Perm f) (hcol : Tar.NoCol env) (hs : Tar.Sane fs) (hh : Tar.Honest env fs)
    (h : Start env build pr pk g o fetch tar fs) {sched : List Nat} {n : Nat} {x : XRun} (hord : ListOrder (jobsFor o g fetch) (sched ++ [n]))
    (hx : RunInv env pk g o fetch fs sched x) : RunInv env pk g o fetch fs (sched ++ [n]) (x.step env build (jobsFor o g fetch) n) := by
  have hF := Tar.fine_run ho hcol (ready_of h) sched _ (fine_start hs hh h)
  rw [← hx.runs] at hF
  unfold XRun.step
  cases hj : jobsFor o g fetch n with
  | none =>
    have hnot : ∀ m, (jobsFor o g fetch m).isSome → m ≠ n := fun m hm he => by rw [he, hj] at hm; cases hm
    refine ⟨?_, fun m hm hns => hx.waiting m hm (fun hc => hns (List.mem_append_left _ hc)), fun m hm hns => hx.begun m hm ?_⟩
    · rw [Tar.runs_snoc, ← hx.runs]
      unfold Tar.Runs.step
      rw [hj]
    · exact (List.mem_append.1 hns).resolve_right (fun hc => hnot m hm (List.mem_singleton.1 hc))
  | some j =>
    have hjs : (jobsFor o g fetch n).isSome := by rw [hj]; rfl
    -- the other packages
    have others : ∀ (r : Tar.Runs) (p : XPhase), r = (Tar.Runs.init fs).run env (jobsFor o g fetch) (sched ++ [n]) →
        (∀ m, m ≠ n → r.pcs m = x.runs.pcs m) → (p = .extracting ∨ (p = .extracted (rebuildFor pk g n) ∧ ∃ i, r.pcs n = .done i)) →
        RunInv env pk g o fetch fs (sched ++ [n]) ⟨r, Tar.upd x.phase n p⟩ := by
      intro r p hr hm hp
      refine ⟨hr, fun m hm' hns => ?_, fun m hm' hns => ?_⟩
      · have : m ≠ n := fun he => hns (by simp [he])
        simp only [Tar.upd_ne _ _ this]
        exact hx.waiting m hm' (fun hc => hns (List.mem_append_left _ hc))
      · by_cases he : m = n
        · subst he
          simp only [Tar.upd_self]
          exact hp
        · simp only [Tar.upd_ne _ _ he, hm m he]
          exact hx.begun m hm' ((List.mem_append.1 hns).resolve_right (fun hc => he (List.mem_singleton.1 hc)))
    have hstep : x.runs.step env (jobsFor o g fetch) n = (Tar.Runs.init fs).run env (jobsFor o g fetch) (sched ++ [n]) := by
      rw [Tar.runs_snoc, ← hx.runs]
    have hpcs : ∀ m, m ≠ n → (x.runs.step env (jobsFor o g fetch) n).pcs m = x.runs.pcs m := by
      intro m hm
      unfold Tar.Runs.step
      rw [hj]
      exact Tar.upd_ne _ _ hm
    simp only
    by_cases hin : n ∈ sched
    · rcases hx.begun n hjs hin with hp | ⟨hp, i, hi⟩
      · rw [hp]
        simp only
        have hfine := hF.pc n j hj
        cases hpc : x.runs.pcs n with
        | failed => rw [hpc] at hfine; exact hfine.elim
        | done i =>
          have hr := reads ho hcol hs hh h (sched := sched) hj (by rw [← hx.runs]; exact hpc)
          rw [← hx.runs] at hr
          simp only [hr]
          refine others x.runs _ ?_ (fun _ _ => rfl) (.inr ⟨rfl, i, hpc⟩)
          rw [← hstep, runs_idle hpc]
        | _ =>
          have := others (x.runs.step env (jobsFor o g fetch) n) .extracting hstep hpcs (.inl rfl)
          rw [← hp, upd_same] at this
          exact this
      · rw [hp]
        simp only
        have := others x.runs (.extracted (rebuildFor pk g n)) (by rw [← hstep, runs_idle hi]) (fun _ _ => rfl) (.inr ⟨rfl, i, hi⟩)
        rw [← hp, upd_same] at this
        exact this
    · rw [hx.waiting n hjs hin]
      simp only
      have hlt : ∀ m ∈ sched, (jobsFor o g fetch m).isSome → m < n := by
        intro m hm hms
        rcases Nat.lt_trichotomy m n with hlt | he | hgt
        · exact hlt
        · exact absurd (he ▸ hm) hin
        · exfalso
          obtain ⟨a, b, hab⟩ := List.append_of_mem hm
          have := hord a m (b ++ [n]) (by rw [hab]; simp) hms n hgt hjs
          exact hin (by rw [hab]; exact List.mem_append_left _ this)
      have hnt := not_taken ho hcol hs hh h hj hlt
      rw [← hx.runs] at hnt
      rw [hnt]
      exact others _ _ hstep hpcs (.inl rfl)

theorem ListOrder.init {jobs : Nat → Option Tar.Job} {l : List Nat} {n : Nat} (h : ListOrder jobs (l ++ [n])) : ListOrder jobs l :=
  fun a m b hab hm k hk hks => h a m (b ++ [n]) (by rw [hab]; simp) hm k hk hks

theorem xrun_snoc {jobs : Nat → Option Tar.Job} (w : XRun) (l : List Nat) (n : Nat) :
    w.run env build jobs (l ++ [n]) = (w.run env build jobs l).step env build jobs n := by
  simp [XRun.run]

theorem runinv_run (ho : ∀ f, (env.ord f).Perm f) (hcol : Tar.NoCol env) (hs : Tar.Sane fs) (hh : Tar.Honest env fs)
    (h : Start env build pr pk g o fetch tar fs) (sched : List Nat) (hord : ListOrder (jobsFor o g fetch) sched) :
    RunInv env pk g o fetch fs sched ((XRun.init fs).run env build (jobsFor o g fetch) sched) := by
  induction sched using List.reverseRecOn with
  | nil => exact ⟨rfl, fun _ _ _ => rfl, fun _ _ hc => by cases hc⟩
  | append_singleton l n ih =>
    rw [xrun_snoc]
    exact runinv_step ho hcol hs hh h hord (ih hord.init)

/-- what is on disk when all packages are extracted -/
theorem installed_of (ho : ∀ f, (env.ord f).Perm f) (hcol : Tar.NoCol env) (hs : Tar.Sane fs) (hh : Tar.Honest env fs)
    (h : Start env build pr pk g o fetch tar fs) (sched : List Nat)
    (hall : ∀ n, (jobsFor o g fetch n).isSome → ∃ i, ((Tar.Runs.init fs).run env (jobsFor o g fetch) sched).pcs n = .done i) :
    Installed pk g (seen pr o.root ((Tar.Runs.init fs).run env (jobsFor o g fetch) sched).fs) := by
  have hR := ready_of h
  have hF0 := fine_start hs hh h
  have hF := Tar.fine_run ho hcol hR sched _ hF0
  have hH := Tar.housed_run ho sched _ (Tar.housed_init (jobs := jobsFor o g fetch) fs)
  have hsp := Tar.sprung_run ho hcol hR hF0 sched
  have hcl := hH.closed h.bare.closed
  generalize (Tar.Runs.init fs).run env (jobsFor o g fetch) sched = w at *
  have hg := h.tree
  -- a file of a package
  have file : ∀ {i j nd π}, jobsFor o g fetch i = some j → i ≠ 0 → g.nodes[i]? = some nd → LocatedAt g i π →
      ∀ {f : Tar.Entry} {r : Loc}, f ∈ (env.untar (tar nd.pkg)).1 → f.regular = true → (RPath.components f.header).tail = r.map .normal →
      Tar.place j.dir f = o.root ++ (folder π ++ r) ∧ ∃ k, w.fs.files (o.root ++ (folder π ++ r)) = some k ∧ pr (w.fs.content k) = pr f.content := by
    intro i j nd π hj h0 hi hl f r hf hr ht
    obtain ⟨_, nd', hi', htar, _⟩ := jobsFor_some (tar := tar) hj
    rw [hi] at hi'; cases hi'
    rw [← htar] at hf
    have hpl : Tar.place j.dir f = o.root ++ (folder π ++ r) := by
      obtain ⟨r', h1, h2⟩ := tail_names (hR.plain i j hj) hf hr j.dir
      rw [ht] at h1
      rw [h2, job_folder hg hj hl, map_normal_inj h1, List.append_assoc]
    obtain ⟨x, hd⟩ := hall i (by rw [hj]; rfl)
    have hpc := hF.inv.pc i j hj
    rw [hd] at hpc
    obtain ⟨k, hk⟩ := Option.isSome_iff_exists.1 (hpc f hf hr)
    have hrt := hF.inv.right i j hj f hf hr k hk
    rw [hpl] at hk
    exact ⟨hpl, k, hk, h.sight _ _ hrt⟩
  -- the folders of a package
  have dirOf : ∀ {i j nd π}, jobsFor o g fetch i = some j → i ≠ 0 → g.nodes[i]? = some nd → LocatedAt g i π →
      ∀ {r : Loc}, pk.content nd.pkg r = some .dir → w.fs.dirs (o.root ++ (folder π ++ r)) = true := by
    intro i j nd π hj h0 hi hl r hc
    rcases (h.packed i nd h0 hi r .dir).1 hc with ⟨_, _, _, _, hx⟩ | ⟨_, f, hf, hr, s, hs', ht⟩
    · cases hx
    · obtain ⟨_, k, hk, _⟩ := file hj h0 hi hl hf hr ht
      have hpar : w.fs.dirs (o.root ++ (folder π ++ (r ++ s))).dropLast = true := by
        rcases hH.files _ (by rw [hk]; simp) with hx | hx
        · exfalso
          refine hx ?_
          have h1 := (job_folder hg hj hl)
          have : Tar.Inside j.dir (o.root ++ (folder π ++ (r ++ s))) := ⟨r ++ s, by rw [h1]; simp⟩
          exact hR.files i j hj _ this
        · exact hx
      refine hcl _ hpar _ (Tar.prefix_dropLast ⟨s, by simp⟩ ?_)
      intro he
      have := congrArg List.length he
      simp only [List.length_append] at this
      have : s.length ≠ 0 := fun hz => hs' (List.length_eq_zero_iff.1 hz)
      omega
  -- and no file there
  have noFile : ∀ {i j nd π}, jobsFor o g fetch i = some j → i ≠ 0 → g.nodes[i]? = some nd → LocatedAt g i π →
      ∀ {r : Loc}, pk.content nd.pkg r = some .dir → w.fs.files (o.root ++ (folder π ++ r)) = none := by
    intro i j nd π hj h0 hi hl r hc
    rcases (h.packed i nd h0 hi r .dir).1 hc with ⟨_, _, _, _, hx⟩ | ⟨_, f, hf, hr, s, hs', ht⟩
    · cases hx
    · obtain ⟨hpl, _⟩ := file hj h0 hi hl hf hr ht
      obtain ⟨_, nd', hi', htar, _⟩ := jobsFor_some (tar := tar) hj
      rw [hi] at hi'; cases hi'
      rw [← htar] at hf
      have hP := hR.place hj
      have hpre : o.root ++ (folder π ++ r) <+: (Tar.place j.dir f).dropLast := by
        rw [hpl]
        refine Tar.prefix_dropLast ⟨s, by simp⟩ ?_
        intro he
        have := congrArg List.length he
        simp only [List.length_append] at this
        have : s.length ≠ 0 := fun hz => hs' (List.length_eq_zero_iff.1 hz)
        omega
      refine Tar.no_file hR hF.inv hj (.inl ⟨Tar.own_between (hP.parent hf hr).1 hpre ?_, fun e' he' hr' hx => ?_⟩)
      · rw [job_folder hg hj hl]; exact ⟨r, by simp⟩
      · exact hP.not_within he' hr' hf hr (by rw [hx]; exact hpre)
  have way : ∀ {i j nd π}, jobsFor o g fetch i = some j → i ≠ 0 → g.nodes[i]? = some nd → LocatedAt g i π →
      ∀ {q : Loc}, q <+: o.root ++ folder π → w.fs.files q = none ∧ w.fs.dirs q = true := by
    intro i j nd π hj h0 hi hl q hq
    refine ⟨Tar.no_file hR hF.inv hj (.inr (by rw [job_folder hg hj hl]; exact hq)), ?_⟩
    have := dirOf hj h0 hi hl (hg.dirs i nd h0 hi)
    rw [List.append_nil] at this
    exact hcl _ this q hq
  intro p _ e
  constructor
  · intro hse
    unfold seen at hse
    cases hfile : w.fs.files (o.root ++ nmWord :: p) with
    | some k =>
      rw [hfile] at hse
      simp only [Option.some.injEq] at hse
      by_cases hex : ∃ n j, jobsFor o g fetch n = some j ∧ ∃ f ∈ (env.untar (tarFor g tar n)).1, f.regular = true ∧ Tar.place j.dir f = o.root ++ nmWord :: p
      · obtain ⟨n, j, hj, f, hf, hr, hpl⟩ := hex
        obtain ⟨h0, nd, hi, htar, _⟩ := jobsFor_some (tar := tar) hj
        obtain ⟨π, hl⟩ := located_of hg hi
        obtain ⟨r, h1, h2⟩ := tail_names (hR.plain n j hj) hf hr j.dir
        have hrt := hF.inv.right n j hj f hf hr k (by rw [hpl]; exact hfile)
        rw [htar] at hf
        refine .inl ⟨n, nd, π, r, h0, hi, hl, ?_, ?_⟩
        · rw [h2, job_folder hg hj hl, List.append_assoc] at hpl
          exact (List.append_cancel_left hpl).symm
        · rw [← hse]
          exact (h.packed n nd h0 hi r _).2 (.inl ⟨f, hf, hr, h1, by rw [h.sight _ _ hrt]⟩)
      · exfalso
        have := hF.inv.files (o.root ++ nmWord :: p) (fun n j hj f hf hr hpl => hex ⟨n, j, hj, f, hf, hr, hpl⟩)
        rw [hfile] at this
        by_cases hp0 : p = []
        · subst hp0
          rw [h.bare.above _ (List.prefix_refl _)] at this
          cases this
        · rw [(h.bare.empty p hp0).1] at this
          cases this
    | none =>
      rw [hfile] at hse
      simp only at hse
      split at hse
      · rename_i hdir
        simp only [Option.some.injEq] at hse
        subst hse
        rcases hsp _ hdir with hx | ⟨n, _, j, hj, hx⟩
        · right
          refine ⟨rfl, .inl ?_⟩
          by_contra hp0
          rw [(h.bare.empty p hp0).2] at hx
          cases hx
        · obtain ⟨h0, nd, hi, htar, _⟩ := jobsFor_some (tar := tar) hj
          obtain ⟨π, hl⟩ := located_of hg hi
          have onway : o.root ++ nmWord :: p <+: j.dir → Expected pk g p .dir := by
            intro hx
            rw [job_folder hg hj hl, List.prefix_append_right_inj] at hx
            exact .inr ⟨rfl, .inr ⟨n, π, h0, hl, hx⟩⟩
          rcases hx with hx | ⟨f, hf, hr, hx⟩
          · exact onway hx
          · have hP := (hR.place hj).parent hf hr
            rcases List.prefix_or_prefix_of_prefix hx hP.1.1 with hy | hy
            · exact onway hy
            · obtain ⟨r, h1, h2⟩ := tail_names (hR.plain n j hj) hf hr j.dir
              obtain ⟨a, ha⟩ := hy
              obtain ⟨b, hb⟩ := hx.trans (List.dropLast_prefix _)
              rw [← ha, h2, List.append_assoc] at hb
              have hb' := List.append_cancel_left hb
              have hbne : b ≠ [] := by
                intro hbn
                subst hbn
                have hlen := List.IsPrefix.length_le hx
                rw [h2, ← ha, ← hb'] at hlen
                rw [List.length_dropLast] at hlen
                simp only [List.length_append, List.append_nil] at hlen
                have : j.dir.length ≠ 0 := fun hz => hR.below n j hj (List.length_eq_zero_iff.1 hz)
                omega
              rw [htar] at hf
              refine .inl ⟨n, nd, π, a, h0, hi, hl, ?_, ?_⟩
              · rw [job_folder hg hj hl, List.append_assoc] at ha
                exact (List.append_cancel_left ha).symm
              · exact (h.packed n nd h0 hi a _).2 (.inr ⟨rfl, f, hf, hr, b, hbne, by rw [h1, hb']⟩)
      · cases hse
  · rintro (⟨i, nd, π, r, h0, hi, hl, hp, hc⟩ | ⟨rfl, hp⟩)
    · obtain ⟨j, hj⟩ := jobsFor_of (o := o) (fetch := fetch) h0 hi
      unfold seen
      rw [hp]
      rcases (h.packed i nd h0 hi r e).1 hc with ⟨f, hf, hr, ht, rfl⟩ | ⟨rfl, _⟩
      · obtain ⟨_, k, hk, hpr⟩ := file hj h0 hi hl hf hr ht
        rw [hk]
        simp only [hpr]
      · rw [noFile hj h0 hi hl hc, dirOf hj h0 hi hl hc]
        simp
    · unfold seen
      rcases hp with rfl | ⟨i, π, h0, hl, hp⟩
      · rw [Tar.Inv.files hF.inv, h.bare.above _ (List.prefix_refl _), hH.up _ h.bare.modules]
        · simp
        · intro n j hj f hf hr hx
          have := ((hR.place hj).own hf hr).1.1
          rw [hx] at this
          obtain ⟨h0, nd, hi, _, hd⟩ := jobsFor_some (tar := tar) hj
          have hlen := List.IsPrefix.length_le this
          rw [hd] at hlen
          have := target_ne_nil hg h0 hi
          have : (targetDir g n).length ≠ 0 := fun hz => this (List.length_eq_zero_iff.1 hz)
          simp only [List.length_append, List.length_cons, List.length_nil] at hlen
          omega
      · obtain ⟨nd, hi⟩ := located_exists hl
        obtain ⟨j, hj⟩ := jobsFor_of (o := o) (fetch := fetch) h0 hi
        obtain ⟨h1, h2⟩ := way hj h0 hi hl ((List.prefix_append_right_inj o.root).2 hp)
        rw [h1, h2]
        simp

end
end Hoisted
end Oro
