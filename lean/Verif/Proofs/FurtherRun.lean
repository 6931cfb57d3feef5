import Verif.Proofs.Further
/-
A further installation that goes well.
-/

set_option linter.unusedSectionVars false

namespace Oro
namespace Hoisted
section
variable {P S : Type} [DecidableEq S]
variable {env : Tar.Env} {build : Bytes → Option Bool} {pr : Bytes → Bytes} {pk : Pkgs P} {g : Graph Str P S} {o : XOpts}
  {fetch : P → Option Tar.Integrity × Option (List Tar.Ev)} {tar : P → Bytes} {fs : Tar.FS}

/-- what is seen is there -/
theorem seen_taken {p : Loc} : seen pr o.root fs p = none ↔ fs.taken (o.root ++ nmWord :: p) = false := by
  unfold seen Tar.FS.taken
  cases fs.files (o.root ++ nmWord :: p) with
  | some i => simp
  | none => cases fs.dirs (o.root ++ nmWord :: p) <;> simp

theorem job_dir {i : Nat} {j : Tar.Job} (h : jobsFor o g fetch i = some j) : j.dir = o.root ++ nmWord :: targetDir g i :=
  (jobsFor_some (tar := fun _ => []) h).2.elim fun _ h => h.2.2

theorem nm_target (hg : Installable pk g) {i : Nat} (h0 : i ≠ 0) {π : List Str} (hl : LocatedAt g i π) : nmWord :: targetDir g i = folder π :=
  target_folder hg.tree (ord_of hg) h0 hl

theorem no_file_above (h : Further env build pr pk g o fetch tar fs) {n : Nat} {j : Tar.Job} (hj : jobsFor o g fetch n = some j)
    (ht : fs.taken j.dir = false) {q : Loc} (hq : q <+: j.dir) : fs.files q = none := by
  obtain ⟨h0, nd, hn, _, hd⟩ := jobsFor_some (tar := tar) hj
  obtain ⟨ρ, hl⟩ := located_of h.tree hn
  rw [hd, show o.root ++ nmWord :: targetDir g n = (o.root ++ [nmWord]) ++ targetDir g n by simp] at hq
  rcases List.prefix_or_prefix_of_prefix hq (List.prefix_append _ _) with hx | ⟨a, rfl⟩
  · by_contra hne
    have h1 := h.proper.apart q hne
    rw [h.proper.closed _ h.modules q hx] at h1; cases h1
  · rw [List.prefix_append_right_inj] at hq
    by_contra hne
    obtain ⟨k, hk⟩ := Option.ne_none_iff_exists'.1 hne
    have hseen : seen pr o.root fs a = some (.file (pr (fs.content k))) := by
      unfold seen
      rw [show o.root ++ nmWord :: a = o.root ++ [nmWord] ++ a by simp, hk]
    have hway : nmWord :: a <+: folder ρ := by
      rw [← nm_target h.tree h0 hl]
      exact (List.prefix_append_right_inj [nmWord]).2 hq
    rcases h.expected a (not_inBin_way (located_inst h.tree hl) hway) _ hseen with ⟨i, ndi, π, r, hi0, hi, hli, hp, hc⟩ | ⟨hx, _⟩
    · rw [hp] at hway
      obtain ⟨y, hy⟩ := hway
      rw [List.append_assoc] at hy
      obtain ⟨σ, rfl, hσ⟩ := folder_prefix (located_names h.tree hli) (located_names h.tree hl) hy
      cases r with
      | nil => rw [h.tree.dirs i ndi hi0 hi] at hc; cases hc
      | cons x r =>
        cases σ with
        | nil => simp [folder] at hσ
        | cons m σ =>
          rw [folder_cons] at hσ
          simp only [List.cons_append, List.cons.injEq] at hσ
          rw [hσ.1, h.tree.bundled i ndi r hi0 hi] at hc; cases hc
    · cases hx

theorem further_ready (h : Further env build pr pk g o fetch tar fs) : Tar.Ready env (absent (jobsFor o g fetch) fs) (tarFor g tar) fs := by
  have hg := h.tree
  have ob : ∀ n j, absent (jobsFor o g fetch) fs n = some j → Obtainable env j (tarFor g tar n) fs := by
    intro n j hj
    obtain ⟨hj, htk⟩ := absent_some.1 hj
    obtain ⟨h0, nd, hn, ht, hd⟩ := jobsFor_some (tar := tar) hj
    rw [ht]
    exact h.packages n nd j h0 hn hj (seen_taken.2 (by rw [← hd]; exact htk))
  refine ⟨?_, ?_, absent_vacant h.proper, ?_, ?_, fun n j hj => (ob n j hj).fits, fun n j hj => (ob n j hj).complete,
    fun n j hj => (ob n j hj).plain, ?_, fun n j hj => (ob n j hj).sound, fun n j hj => (ob n j hj).served,
    fun n j hj => (ob n j hj).cached⟩
  · intro n j hj n' j' hj' hne
    exact laid_of hg n j (absent_some.1 hj).1 n' j' (absent_some.1 hj').1 hne
  · intro n j hj hx
    rw [job_dir (absent_some.1 hj).1] at hx
    simp at hx
  · intro n j hj q hq
    exact no_file_above h (absent_some.1 hj).1 (absent_some.1 hj).2 hq
  · intro n j hj d hin _
    cases hx : fs.dirs d with
    | false => rfl
    | true =>
      have := (absent_some.1 hj).2
      unfold Tar.FS.taken at this
      rw [h.proper.closed d hx _ hin] at this
      simp at this
  · intro n j hj e he hr hx
    obtain ⟨h0, nd, hn, ht, _⟩ := jobsFor_some (tar := tar) (absent_some.1 hj).1
    obtain ⟨r, h1, _⟩ := tail_names (ob n j hj).plain he hr []
    rw [h1, List.head?_map] at hx
    cases r with
    | nil => cases hx
    | cons x r =>
      simp only [List.head?_cons, Option.map_some, Option.some.injEq, Comp.normal.injEq] at hx
      subst hx
      have hb := hg.bundled n nd r h0 hn
      rw [ht] at he
      have := (h.packed n nd h0 hn (nmWord :: r) (.file (pr e.content))).2 (.inl ⟨e, he, hr, h1, rfl⟩)
      rw [hb] at this
      cases this

theorem fine_further (hs : Tar.Sane fs) (hh : Tar.Honest env fs) (h : Further env build pr pk g o fetch tar fs) :
    Tar.Fine env (absent (jobsFor o g fetch) fs) (tarFor g tar) fs (.init fs) := Tar.fine_init hs (Tar.honest_weak hh) (further_ready h)

/-- the folder of a package that was not there and has not begun is not there -/
theorem further_not_taken (ho : ∀ f, (env.ord f).Perm f) (hcol : Tar.NoCol env) (hs : Tar.Sane fs) (hh : Tar.Honest env fs)
    (h : Further env build pr pk g o fetch tar fs) {sched : List Nat} {n : Nat} {j : Tar.Job} (hj : absent (jobsFor o g fetch) fs n = some j)
    (hlt : ∀ m ∈ sched, (jobsFor o g fetch m).isSome → m < n) :
    ((Tar.Runs.init fs).run env (absent (jobsFor o g fetch) fs) sched).fs.taken j.dir = false := by
  have hR := further_ready h
  have hF0 := fine_further hs hh h
  have hF := Tar.fine_run ho hcol hR sched _ hF0
  obtain ⟨hj0, htk⟩ := absent_some.1 hj
  obtain ⟨h0, nd, hn, _, hd⟩ := jobsFor_some (tar := tar) hj0
  obtain ⟨π, hl⟩ := located_of h.tree hn
  unfold Tar.FS.taken
  rw [Tar.no_file hR hF.inv hj (.inr (List.prefix_refl _))]
  cases hx : ((Tar.Runs.init fs).run env (absent (jobsFor o g fetch) fs) sched).fs.dirs j.dir with
  | false => rfl
  | true =>
    exfalso
    rcases Tar.sprung_run ho hcol hR hF0 sched _ hx with hx | ⟨m, hm, j', hj', hx⟩
    · unfold Tar.FS.taken at htk
      rw [hx] at htk
      simp at htk
    · obtain ⟨hj0', _⟩ := absent_some.1 hj'
      have hmn : m < n := hlt m hm (by rw [hj0']; rfl)
      obtain ⟨h0', nd', hn', _, _⟩ := jobsFor_some (tar := tar) hj0'
      obtain ⟨ρ, hl'⟩ := located_of h.tree hn'
      have up : ¬ j.dir <+: j'.dir := by
        intro hp
        rw [job_folder h.tree hj0 hl, job_folder h.tree hj0' hl', List.prefix_append_right_inj] at hp
        have := le_of_folder_prefix h.tree hl hl' hp
        omega
      rcases hx with hx | ⟨e, he, hr, hx⟩
      · exact up hx
      · have hP := (hR.place hj').parent he hr
        rcases List.prefix_or_prefix_of_prefix hx hP.1.1 with hy | hy
        · exact up hy
        · exact Tar.own_disjoint hR.laid hj hj' (by omega) (Tar.own_self j) (Tar.own_between hP.1 hx hy)

/-- the manifest of an extracted package can be read -/
theorem further_reads (ho : ∀ f, (env.ord f).Perm f) (hcol : Tar.NoCol env) (hs : Tar.Sane fs) (hh : Tar.Honest env fs)
    (h : Further env build pr pk g o fetch tar fs) {sched : List Nat} {n : Nat} {j : Tar.Job} (hj : absent (jobsFor o g fetch) fs n = some j)
    {i : Tar.Integrity} (hd : ((Tar.Runs.init fs).run env (absent (jobsFor o g fetch) fs) sched).pcs n = .done i) :
    ((((Tar.Runs.init fs).run env (absent (jobsFor o g fetch) fs) sched).fs.files (j.dir ++ [Tar.kPackageJson])).bind fun i =>
      build (((Tar.Runs.init fs).run env (absent (jobsFor o g fetch) fs) sched).fs.content i)) = some (rebuildFor pk g n) := by
  have hF := Tar.fine_run ho hcol (further_ready h) sched _ (fine_further hs hh h)
  obtain ⟨h0, nd, hn, ht, _⟩ := jobsFor_some (tar := tar) (absent_some.1 hj).1
  obtain ⟨f, hf, hr, hp, hb⟩ := h.built n nd h0 hn
  rw [← ht] at hf
  have hpc := hF.inv.pc n j hj
  rw [hd] at hpc
  have hplace : Tar.place j.dir f = j.dir ++ [Tar.kPackageJson] := by
    obtain ⟨r, h1, h2⟩ := tail_names ((further_ready h).plain n j hj) hf hr j.dir
    rw [h1] at hp
    rw [h2, show r = [Tar.kPackageJson] from map_normal_inj hp]
  obtain ⟨k, hk⟩ := Option.isSome_iff_exists.1 (hpc f hf hr)
  have hx := hF.inv.right n j hj f hf hr k hk
  rw [hplace] at hk
  rw [hk]
  simp only [Option.bind_some]
  rw [h.reading _ _ hx, hb]
  unfold rebuildFor
  rw [hn]

/-- where such an installation stands -/
structure FurtherInv (env : Tar.Env) (pk : Pkgs P) (g : Graph Str P S) (jobs : Nat → Option Tar.Job) (fs : Tar.FS)
    (sched : List Nat) (x : XRun) : Prop where
  runs : x.runs = (Tar.Runs.init fs).run env (absent jobs fs) sched
  waiting : ∀ n, (jobs n).isSome → n ∉ sched → x.phase n = .waiting
  kept : ∀ n j, jobs n = some j → fs.taken j.dir = true → n ∈ sched → x.phase n = .skipped
  begun : ∀ n j, absent jobs fs n = some j → n ∈ sched →
    x.phase n = .extracting ∨ (x.phase n = .extracted (rebuildFor pk g n) ∧ ∃ i, x.runs.pcs n = .done i)

theorem furtherinv_step (ho : ∀ f, (env.ord f).Perm f) (hcol : Tar.NoCol env) (hs : Tar.Sane fs) (hh : Tar.Honest env fs)
    (h : Further env build pr pk g o fetch tar fs) {sched : List Nat} {n : Nat} {x : XRun} (hord : ListOrder (jobsFor o g fetch) (sched ++ [n]))
    (hx : FurtherInv env pk g (jobsFor o g fetch) fs sched x) :
    FurtherInv env pk g (jobsFor o g fetch) fs (sched ++ [n]) (x.step env build (jobsFor o g fetch) n) := by
  have hR := further_ready h
  have hF := Tar.fine_run ho hcol hR sched _ (fine_further hs hh h)
  rw [← hx.runs] at hF
  have mem : ∀ {m}, m ≠ n → m ∈ sched ++ [n] → m ∈ sched := fun hne hm =>
    (List.mem_append.1 hm).resolve_right (fun hc => hne (List.mem_singleton.1 hc))
  unfold XRun.step
  cases hj : jobsFor o g fetch n with
  | none =>
    have habs : absent (jobsFor o g fetch) fs n = none := by unfold absent; rw [hj]; rfl
    refine ⟨?_, fun m hm hns => hx.waiting m hm (fun hc => hns (List.mem_append_left _ hc)), fun m j hm ht hns => hx.kept m j hm ht (mem ?_ hns),
      fun m j hm hns => hx.begun m j hm (mem ?_ hns)⟩
    · rw [Tar.runs_snoc, ← hx.runs]
      unfold Tar.Runs.step
      rw [habs]
    · rintro rfl; rw [hj] at hm; cases hm
    · rintro rfl; rw [habs] at hm; cases hm
  | some j =>
    have hjs : (jobsFor o g fetch n).isSome := by rw [hj]; rfl
    simp only
    cases htk : fs.taken j.dir with
    | true =>
      have habs := absent_none hj htk
      have hrun : x.runs = (Tar.Runs.init fs).run env (absent (jobsFor o g fetch) fs) (sched ++ [n]) := by
        rw [Tar.runs_snoc, ← hx.runs]
        unfold Tar.Runs.step
        rw [habs]
      have fin : FurtherInv env pk g (jobsFor o g fetch) fs (sched ++ [n]) ⟨x.runs, Tar.upd x.phase n .skipped⟩ := by
        refine ⟨hrun, fun m hm hns => ?_, fun m j' hm ht hns => ?_, fun m j' hm hns => ?_⟩
        · have : m ≠ n := fun he => hns (by simp [he])
          simp only [Tar.upd_ne _ _ this]
          exact hx.waiting m hm (fun hc => hns (List.mem_append_left _ hc))
        · by_cases he : m = n
          · subst he; simp only [Tar.upd_self]
          · simp only [Tar.upd_ne _ _ he]
            exact hx.kept m j' hm ht (mem he hns)
        · have : m ≠ n := fun he => by rw [he, habs] at hm; cases hm
          simp only [Tar.upd_ne _ _ this]
          exact hx.begun m j' hm (mem this hns)
      by_cases hin : n ∈ sched
      · have hph := hx.kept n j hj htk hin
        rw [hph]
        simp only
        rw [← hph, upd_same] at fin
        exact fin
      · rw [hx.waiting n hjs hin]
        have ht : x.runs.fs.taken j.dir = true := by
          rw [hx.runs]
          have hH := Tar.housed_run ho sched _ (Tar.housed_init (jobs := absent (jobsFor o g fetch) fs) fs)
          have htk' := htk
          simp only [Tar.FS.taken, Bool.or_eq_true] at htk' ⊢
          rcases htk' with hf | hd
          · refine .inl ?_
            rw [← hx.runs, hF.inv.files j.dir]
            · exact hf
            · intro m j' hj' e he hr hpl
              have := hR.files m j' hj' _ (Tar.place_inside (Tar.plain_contained (hR.plain m j' hj')) he hr)
              rw [hpl] at this
              rw [this] at hf; cases hf
          · exact .inr (hH.up _ hd)
        simp only [ht, if_true]
        exact fin
    | false =>
      have habs : absent (jobsFor o g fetch) fs n = some j := absent_some.2 ⟨hj, htk⟩
      -- the other packages
      have others : ∀ (r : Tar.Runs) (p : XPhase), r = (Tar.Runs.init fs).run env (absent (jobsFor o g fetch) fs) (sched ++ [n]) →
          (∀ m, m ≠ n → r.pcs m = x.runs.pcs m) → (p = .extracting ∨ (p = .extracted (rebuildFor pk g n) ∧ ∃ i, r.pcs n = .done i)) →
          FurtherInv env pk g (jobsFor o g fetch) fs (sched ++ [n]) ⟨r, Tar.upd x.phase n p⟩ := by
        intro r p hr hm hp
        refine ⟨hr, fun m hm' hns => ?_, fun m j' hm' ht hns => ?_, fun m j' hm' hns => ?_⟩
        · have : m ≠ n := fun he => hns (by simp [he])
          simp only [Tar.upd_ne _ _ this]
          exact hx.waiting m hm' (fun hc => hns (List.mem_append_left _ hc))
        · have : m ≠ n := fun he => by rw [he, hj] at hm'; cases hm'; rw [htk] at ht; cases ht
          simp only [Tar.upd_ne _ _ this]
          exact hx.kept m j' hm' ht (mem this hns)
        · by_cases he : m = n
          · subst he
            simp only [Tar.upd_self]
            exact hp
          · simp only [Tar.upd_ne _ _ he, hm m he]
            exact hx.begun m j' hm' (mem he hns)
      have hsame : x.runs.step env (jobsFor o g fetch) n = x.runs.step env (absent (jobsFor o g fetch) fs) n := by
        unfold Tar.Runs.step
        rw [hj, habs]
      have hstep : x.runs.step env (jobsFor o g fetch) n = (Tar.Runs.init fs).run env (absent (jobsFor o g fetch) fs) (sched ++ [n]) := by
        rw [Tar.runs_snoc, ← hx.runs, hsame]
      have hpcs : ∀ m, m ≠ n → (x.runs.step env (jobsFor o g fetch) n).pcs m = x.runs.pcs m := by
        intro m hm
        unfold Tar.Runs.step
        rw [hj]
        exact Tar.upd_ne _ _ hm
      by_cases hin : n ∈ sched
      · rcases hx.begun n j habs hin with hp | ⟨hp, i, hi⟩
        · rw [hp]
          simp only
          have hfine := hF.pc n j habs
          cases hpc : x.runs.pcs n with
          | failed => rw [hpc] at hfine; exact hfine.elim
          | done i =>
            have hr := further_reads ho hcol hs hh h (sched := sched) habs (by rw [← hx.runs]; exact hpc)
            rw [← hx.runs] at hr
            simp only [hr]
            refine others x.runs _ ?_ (fun _ _ => rfl) (.inr ⟨rfl, i, hpc⟩)
            rw [← hstep, runs_idle hpc]
          | _ =>
            have := others (x.runs.step env (jobsFor o g fetch) n) .extracting hstep hpcs (.inl rfl)
            rw [← hp, upd_same] at this
            exact this
        · rw [hp]
          simp only
          have := others x.runs (.extracted (rebuildFor pk g n)) (by rw [← hstep, runs_idle hi]) (fun _ _ => rfl) (.inr ⟨rfl, i, hi⟩)
          rw [← hp, upd_same] at this
          exact this
      · rw [hx.waiting n hjs hin]
        simp only
        have hlt : ∀ m ∈ sched, (jobsFor o g fetch m).isSome → m < n := by
          intro m hm hms
          rcases Nat.lt_trichotomy m n with hlt | he | hgt
          · exact hlt
          · exact absurd (he ▸ hm) hin
          · exfalso
            obtain ⟨a, b, hab⟩ := List.append_of_mem hm
            have := hord a m (b ++ [n]) (by rw [hab]; simp) hms n hgt hjs
            exact hin (by rw [hab]; exact List.mem_append_left _ this)
        have hnt := further_not_taken ho hcol hs hh h habs hlt
        rw [← hx.runs] at hnt
        rw [hnt]
        exact others _ _ hstep hpcs (.inl rfl)

theorem furtherinv_run (ho : ∀ f, (env.ord f).Perm f) (hcol : Tar.NoCol env) (hs : Tar.Sane fs) (hh : Tar.Honest env fs)
    (h : Further env build pr pk g o fetch tar fs) (sched : List Nat) (hord : ListOrder (jobsFor o g fetch) sched) :
    FurtherInv env pk g (jobsFor o g fetch) fs sched ((XRun.init fs).run env build (jobsFor o g fetch) sched) := by
  induction sched using List.reverseRecOn with
  | nil => exact ⟨rfl, fun _ _ _ => rfl, fun _ _ _ _ hc => (by cases hc), fun _ _ _ hc => (by cases hc)⟩
  | append_singleton l n ih =>
    rw [xrun_snoc]
    exact furtherinv_step ho hcol hs hh h hord (ih hord.init)

/-- what is on disk when all packages that were not there are extracted; also in folders for commands, nothing new comes but what the tree
asks for -/
theorem further_either (ho : ∀ f, (env.ord f).Perm f) (hcol : Tar.NoCol env) (hs : Tar.Sane fs) (hh : Tar.Honest env fs)
    (h : Further env build pr pk g o fetch tar fs) (sched : List Nat)
    (hall : ∀ n j, absent (jobsFor o g fetch) fs n = some j →
      ∃ i, ((Tar.Runs.init fs).run env (absent (jobsFor o g fetch) fs) sched).pcs n = .done i) :
    ∀ p, (¬ InBin p → ∀ e, seen pr o.root ((Tar.Runs.init fs).run env (absent (jobsFor o g fetch) fs) sched).fs p = some e ↔ Expected pk g p e) ∧
      ∀ e, seen pr o.root ((Tar.Runs.init fs).run env (absent (jobsFor o g fetch) fs) sched).fs p = some e →
        seen pr o.root fs p = some e ∨ Expected pk g p e := by
  have hR := further_ready h
  have hF0 := fine_further hs hh h
  have hF := Tar.fine_run ho hcol hR sched _ hF0
  have hH := Tar.housed_run ho sched _ (Tar.housed_init (jobs := absent (jobsFor o g fetch) fs) fs)
  have hsp := Tar.sprung_run ho hcol hR hF0 sched
  have hcl := hH.closed h.proper.closed
  generalize (Tar.Runs.init fs).run env (absent (jobsFor o g fetch) fs) sched = w at *
  have hg := h.tree
  -- no file comes to be where a folder was
  have noPlace : ∀ {d : Loc}, fs.taken d = true → ∀ n j, absent (jobsFor o g fetch) fs n = some j →
      ∀ e ∈ (env.untar (tarFor g tar n)).1, e.regular = true → Tar.place j.dir e ≠ d := by
    intro d hd n j hj e he hr hx
    have hin : Tar.Inside j.dir d := by
      rw [← hx]; exact Tar.place_inside (Tar.plain_contained (hR.plain n j hj)) he hr
    have hnt := (absent_some.1 hj).2
    by_cases hdir : fs.dirs d = true
    · unfold Tar.FS.taken at hnt
      rw [h.proper.closed d hdir _ hin] at hnt
      simp at hnt
    · have hv := hR.files n j hj d hin
      unfold Tar.FS.taken at hd
      rw [hv] at hd
      simp only [Option.isSome_none, Bool.false_or] at hd
      exact hdir hd
  -- what is there stays as it is
  have stays : ∀ {p : Loc} {e : Entry}, seen pr o.root fs p = some e → seen pr o.root w.fs p = some e := by
    intro p e hse
    have htk : fs.taken (o.root ++ nmWord :: p) = true := by
      cases hx : fs.taken (o.root ++ nmWord :: p) with
      | true => rfl
      | false => rw [← seen_taken (pr := pr), hse] at hx; cases hx
    have hfile := hF.inv.files _ (noPlace htk)
    unfold seen at hse ⊢
    rw [hfile]
    cases hx : fs.files (o.root ++ nmWord :: p) with
    | some k =>
      rw [hx] at hse
      simp only [Option.some.injEq] at hse ⊢
      rw [← hse, h.sight _ _ (hF.inv.content k (hs.1 _ _ hx))]
    | none =>
      rw [hx] at hse
      simp only at hse ⊢
      split at hse
      · rename_i hd
        rw [if_pos (hH.up _ hd)]
        exact hse
      · cases hse
  -- a file of a package
  have file : ∀ {i j nd π}, absent (jobsFor o g fetch) fs i = some j → i ≠ 0 → g.nodes[i]? = some nd → LocatedAt g i π →
      ∀ {f : Tar.Entry} {r : Loc}, f ∈ (env.untar (tar nd.pkg)).1 → f.regular = true → (RPath.components f.header).tail = r.map .normal →
      Tar.place j.dir f = o.root ++ (folder π ++ r) ∧ ∃ k, w.fs.files (o.root ++ (folder π ++ r)) = some k ∧ pr (w.fs.content k) = pr f.content := by
    intro i j nd π hj h0 hi hl f r hf hr ht
    obtain ⟨_, nd', hi', htar, _⟩ := jobsFor_some (tar := tar) (absent_some.1 hj).1
    rw [hi] at hi'; cases hi'
    rw [← htar] at hf
    have hpl : Tar.place j.dir f = o.root ++ (folder π ++ r) := by
      obtain ⟨r', h1, h2⟩ := tail_names (hR.plain i j hj) hf hr j.dir
      rw [ht] at h1
      rw [h2, job_folder hg (absent_some.1 hj).1 hl, map_normal_inj h1, List.append_assoc]
    obtain ⟨x, hd⟩ := hall i j hj
    have hpc := hF.inv.pc i j hj
    rw [hd] at hpc
    obtain ⟨k, hk⟩ := Option.isSome_iff_exists.1 (hpc f hf hr)
    have hrt := hF.inv.right i j hj f hf hr k hk
    rw [hpl] at hk
    exact ⟨hpl, k, hk, h.sight _ _ hrt⟩
  -- the folders of a package
  have dirOf : ∀ {i j nd π}, absent (jobsFor o g fetch) fs i = some j → i ≠ 0 → g.nodes[i]? = some nd → LocatedAt g i π →
      ∀ {r : Loc}, pk.content nd.pkg r = some .dir → w.fs.dirs (o.root ++ (folder π ++ r)) = true := by
    intro i j nd π hj h0 hi hl r hc
    rcases (h.packed i nd h0 hi r .dir).1 hc with ⟨_, _, _, _, hx⟩ | ⟨_, f, hf, hr, s, hs', ht⟩
    · cases hx
    · obtain ⟨_, k, hk, _⟩ := file hj h0 hi hl hf hr ht
      have hpar : w.fs.dirs (o.root ++ (folder π ++ (r ++ s))).dropLast = true := by
        rcases hH.files _ (by rw [hk]; simp) with hx | hx
        · exfalso
          refine hx ?_
          have h1 := (job_folder hg (absent_some.1 hj).1 hl)
          have : Tar.Inside j.dir (o.root ++ (folder π ++ (r ++ s))) := ⟨r ++ s, by rw [h1]; simp⟩
          exact hR.files i j hj _ this
        · exact hx
      refine hcl _ hpar _ (Tar.prefix_dropLast ⟨s, by simp⟩ ?_)
      intro he
      have := congrArg List.length he
      simp only [List.length_append] at this
      have : s.length ≠ 0 := fun hz => hs' (List.length_eq_zero_iff.1 hz)
      omega
  -- and no file there
  have noFile : ∀ {i j nd π}, absent (jobsFor o g fetch) fs i = some j → i ≠ 0 → g.nodes[i]? = some nd → LocatedAt g i π →
      ∀ {r : Loc}, pk.content nd.pkg r = some .dir → w.fs.files (o.root ++ (folder π ++ r)) = none := by
    intro i j nd π hj h0 hi hl r hc
    rcases (h.packed i nd h0 hi r .dir).1 hc with ⟨_, _, _, _, hx⟩ | ⟨_, f, hf, hr, s, hs', ht⟩
    · cases hx
    · obtain ⟨hpl, _⟩ := file hj h0 hi hl hf hr ht
      obtain ⟨_, nd', hi', htar, _⟩ := jobsFor_some (tar := tar) (absent_some.1 hj).1
      rw [hi] at hi'; cases hi'
      rw [← htar] at hf
      have hP := hR.place hj
      have hpre : o.root ++ (folder π ++ r) <+: (Tar.place j.dir f).dropLast := by
        rw [hpl]
        refine Tar.prefix_dropLast ⟨s, by simp⟩ ?_
        intro he
        have := congrArg List.length he
        simp only [List.length_append] at this
        have : s.length ≠ 0 := fun hz => hs' (List.length_eq_zero_iff.1 hz)
        omega
      refine Tar.no_file hR hF.inv hj (.inl ⟨Tar.own_between (hP.parent hf hr).1 hpre ?_, fun e' he' hr' hx => ?_⟩)
      · rw [job_folder hg (absent_some.1 hj).1 hl]; exact ⟨r, by simp⟩
      · exact hP.not_within he' hr' hf hr (by rw [hx]; exact hpre)
  have way : ∀ {i j nd π}, absent (jobsFor o g fetch) fs i = some j → i ≠ 0 → g.nodes[i]? = some nd → LocatedAt g i π →
      ∀ {q : Loc}, q <+: o.root ++ folder π → w.fs.files q = none ∧ w.fs.dirs q = true := by
    intro i j nd π hj h0 hi hl q hq
    refine ⟨Tar.no_file hR hF.inv hj (.inr (by rw [job_folder hg (absent_some.1 hj).1 hl]; exact hq)), ?_⟩
    have := dirOf hj h0 hi hl (hg.dirs i nd h0 hi)
    rw [List.append_nil] at this
    exact hcl _ this q hq
  -- a folder that was there
  have old : ∀ {p : Loc}, fs.dirs (o.root ++ nmWord :: p) = true → seen pr o.root fs p = some .dir := by
    intro p hd
    unfold seen
    cases hx : fs.files (o.root ++ nmWord :: p) with
    | some k =>
      have := h.proper.apart (o.root ++ nmWord :: p) (by rw [hx]; simp)
      rw [hd] at this; cases this
    | none => simp only [hd, if_true]
  -- packages that are there and that are not
  have here : ∀ {i nd}, i ≠ 0 → g.nodes[i]? = some nd →
      (∃ j, absent (jobsFor o g fetch) fs i = some j) ∨ seen pr o.root fs (targetDir g i) ≠ none := by
    intro i nd h0 hi
    obtain ⟨j, hj⟩ := jobsFor_of (o := o) (fetch := fetch) h0 hi
    cases htk : fs.taken j.dir with
    | false => exact .inl ⟨j, absent_some.2 ⟨hj, htk⟩⟩
    | true =>
      refine .inr fun hx => ?_
      rw [seen_taken, ← job_dir hj, htk] at hx
      cases hx
  intro p
  have new : ∀ e, seen pr o.root w.fs p = some e → seen pr o.root fs p = some e ∨ Expected pk g p e := by
    intro e hse
    by_cases hold : seen pr o.root fs p = some e
    · exact .inl hold
    right
    unfold seen at hse
    cases hfile : w.fs.files (o.root ++ nmWord :: p) with
    | some k =>
      rw [hfile] at hse
      simp only [Option.some.injEq] at hse
      by_cases hex : ∃ n j, absent (jobsFor o g fetch) fs n = some j ∧
          ∃ f ∈ (env.untar (tarFor g tar n)).1, f.regular = true ∧ Tar.place j.dir f = o.root ++ nmWord :: p
      · obtain ⟨n, j, hj, f, hf, hr, hpl⟩ := hex
        obtain ⟨h0, nd, hi, htar, _⟩ := jobsFor_some (tar := tar) (absent_some.1 hj).1
        obtain ⟨π, hl⟩ := located_of hg hi
        obtain ⟨r, h1, h2⟩ := tail_names (hR.plain n j hj) hf hr j.dir
        have hrt := hF.inv.right n j hj f hf hr k (by rw [hpl]; exact hfile)
        rw [htar] at hf
        refine .inl ⟨n, nd, π, r, h0, hi, hl, ?_, ?_⟩
        · rw [h2, job_folder hg (absent_some.1 hj).1 hl, List.append_assoc] at hpl
          exact (List.append_cancel_left hpl).symm
        · rw [← hse]
          exact (h.packed n nd h0 hi r _).2 (.inl ⟨f, hf, hr, h1, by rw [h.sight _ _ hrt]⟩)
      · exfalso
        have := hF.inv.files (o.root ++ nmWord :: p) (fun n j hj f hf hr hpl => hex ⟨n, j, hj, f, hf, hr, hpl⟩)
        rw [hfile] at this
        refine hold ?_
        unfold seen
        rw [← this]
        simp only [Option.some.injEq]
        rw [← hse, h.sight _ _ (hF.inv.content k (hs.1 _ _ this.symm))]
    | none =>
      rw [hfile] at hse
      simp only at hse
      split at hse
      · rename_i hdir
        simp only [Option.some.injEq] at hse
        subst hse
        rcases hsp _ hdir with hx | ⟨n, _, j, hj, hx⟩
        · exact absurd (old hx) hold
        · obtain ⟨h0, nd, hi, htar, _⟩ := jobsFor_some (tar := tar) (absent_some.1 hj).1
          obtain ⟨π, hl⟩ := located_of hg hi
          have onway : o.root ++ nmWord :: p <+: j.dir → Expected pk g p .dir := by
            intro hx
            rw [job_folder hg (absent_some.1 hj).1 hl, List.prefix_append_right_inj] at hx
            exact .inr ⟨rfl, .inr ⟨n, π, h0, hl, hx⟩⟩
          rcases hx with hx | ⟨f, hf, hr, hx⟩
          · exact onway hx
          · have hP := (hR.place hj).parent hf hr
            rcases List.prefix_or_prefix_of_prefix hx hP.1.1 with hy | hy
            · exact onway hy
            · obtain ⟨r, h1, h2⟩ := tail_names (hR.plain n j hj) hf hr j.dir
              obtain ⟨a, ha⟩ := hy
              obtain ⟨b, hb⟩ := hx.trans (List.dropLast_prefix _)
              rw [← ha, h2, List.append_assoc] at hb
              have hb' := List.append_cancel_left hb
              have hbne : b ≠ [] := by
                intro hbn
                subst hbn
                have hlen := List.IsPrefix.length_le hx
                rw [h2, ← ha, ← hb'] at hlen
                rw [List.length_dropLast] at hlen
                simp only [List.length_append, List.append_nil] at hlen
                have : j.dir.length ≠ 0 := fun hz => hR.below n j hj (List.length_eq_zero_iff.1 hz)
                omega
              rw [htar] at hf
              refine .inl ⟨n, nd, π, a, h0, hi, hl, ?_, ?_⟩
              · rw [job_folder hg (absent_some.1 hj).1 hl, List.append_assoc] at ha
                exact (List.append_cancel_left ha).symm
              · exact (h.packed n nd h0 hi a _).2 (.inr ⟨rfl, f, hf, hr, b, hbne, by rw [h1, hb']⟩)
      · cases hse
  refine ⟨fun hnb e => ⟨fun hse => (new e hse).elim (h.expected p hnb e) id, ?_⟩, new⟩
  · rintro (⟨i, nd, π, r, h0, hi, hl, hp, hc⟩ | ⟨rfl, hp⟩)
    · rcases here h0 hi with ⟨j, hj⟩ | hseen
      · unfold seen
        rw [hp]
        rcases (h.packed i nd h0 hi r e).1 hc with ⟨f, hf, hr, ht, rfl⟩ | ⟨rfl, _⟩
        · obtain ⟨_, k, hk, hpr⟩ := file hj h0 hi hl hf hr ht
          rw [hk]
          simp only [hpr]
        · rw [noFile hj h0 hi hl hc, dirOf hj h0 hi hl hc]
          simp
      · have hpe : p = targetDir g i ++ r := by
          rw [← nm_target hg h0 hl, List.cons_append] at hp
          exact (List.cons.inj hp).2
        subst hpe
        exact stays (h.whole i nd h0 hi hseen r e hnb hc)
    · rcases hp with rfl | ⟨i, π, h0, hl, hp⟩
      · exact stays (old h.modules)
      · obtain ⟨nd, hi⟩ := located_exists hl
        rcases here h0 hi with ⟨j, hj⟩ | hseen
        · unfold seen
          obtain ⟨h1, h2⟩ := way hj h0 hi hl ((List.prefix_append_right_inj o.root).2 hp)
          rw [h1, h2]
          simp
        · have hd := h.whole i nd h0 hi hseen [] .dir (by
            rw [List.append_nil]
            exact not_inBin_way (located_inst hg hl) (by rw [nm_target hg h0 hl])) (hg.dirs i nd h0 hi)
          rw [List.append_nil] at hd
          have hdir : fs.dirs (o.root ++ nmWord :: targetDir g i) = true := by
            unfold seen at hd
            split at hd
            · cases hd
            · split at hd
              · assumption
              · cases hd
          rw [← nm_target hg h0 hl] at hp
          exact stays (old (h.proper.closed _ hdir _ ((List.prefix_append_right_inj o.root).2 hp)))

theorem further_installed (ho : ∀ f, (env.ord f).Perm f) (hcol : Tar.NoCol env) (hs : Tar.Sane fs) (hh : Tar.Honest env fs)
    (h : Further env build pr pk g o fetch tar fs) (sched : List Nat)
    (hall : ∀ n j, absent (jobsFor o g fetch) fs n = some j →
      ∃ i, ((Tar.Runs.init fs).run env (absent (jobsFor o g fetch) fs) sched).pcs n = .done i) :
    Installed pk g (seen pr o.root ((Tar.Runs.init fs).run env (absent (jobsFor o g fetch) fs) sched).fs) :=
  fun p => (further_either ho hcol hs hh h sched hall p).1

end
end Hoisted
end Oro
