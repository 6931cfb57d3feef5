import Verif.Proofs.TarRun
import Verif.Props.Tarball
import Mathlib.Data.Prod.Lex
import Mathlib.Data.Nat.Find
/-
C91: packages extracted at the same time, through one cache, do not disturb each other.
-/

set_option linter.unusedSectionVars false

namespace Oro
namespace Tar

/-! ### Files -/

/-- At every moment of every schedule: each file in the packages' folders is a file of one of the packages, at its place and
with its contents (up to collisions of the content hash); files elsewhere are those that were there before, and no file that was
there before has other contents (up to collisions), hard links included. -/
theorem C91_always_partial (env : Env) (ho : ∀ f, (env.ord f).Perm f) (fs : FS) (hh : History env fs)
    (jobs : Nat → Option Job) (tar : Nat → Bytes) (ha : Separate env jobs tar) (hv : AllVacant jobs fs) (sched : List Nat) :
    let fs' := ((Runs.init fs).run env jobs sched).fs
    (∀ p i, InSome jobs p → fs'.files p = some i → FromSome env jobs tar fs' p i) ∧
    (∀ p, ¬ InSome jobs p → fs'.files p = fs.files p) ∧
    (∀ p c, ¬ InSome jobs p → Holds fs p c → ∃ c', Holds fs' p c' ∧ env.xxh c' = env.xxh c) := by
  obtain ⟨hs, hf⟩ := history_honest hh
  have inv := inv_run ho (fun h => h.elim) ha sched _ (inv_init hs hf ha hv)
  have hout : ∀ p, ¬ InSome jobs p → ((Runs.init fs).run env jobs sched).fs.files p = fs.files p := by
    intro p hp
    refine inv.files p (fun n j hj e he hr hx => hp ⟨n, j, hj, ?_⟩)
    rw [← hx]; exact place_inside (plain_contained (ha.plain n j hj)) he hr
  refine ⟨fun p i hp hi => ?_, hout, fun p c hp ⟨i, h1, h2⟩ => ?_⟩
  · by_contra hn
    have : ((Runs.init fs).run env jobs sched).fs.files p = fs.files p := by
      refine inv.files p (fun n j hj e he hr hx => hn ⟨n, j, hj, e, he, hr, hx, ?_⟩)
      exact inv.right n j hj e he hr i (by rw [hx]; exact hi)
    obtain ⟨n, j, hj, hin⟩ := hp
    rw [this, hv n j hj p hin] at hi
    cases hi
  · exact ⟨_, ⟨i, by rw [hout p hp]; exact h1, rfl⟩, by rw [inv.content i (hs.1 _ _ h1), h2]⟩

/-- When an extraction has succeeded, all files of its package are there, whatever the others have done and go on doing. -/
theorem C91_done_partial (env : Env) (ho : ∀ f, (env.ord f).Perm f) (fs : FS) (hh : History env fs)
    (jobs : Nat → Option Job) (tar : Nat → Bytes) (ha : Separate env jobs tar) (hv : AllVacant jobs fs) (sched : List Nat)
    (n : Nat) (j : Job) (hj : jobs n = some j) (i : Integrity)
    (hd : ((Runs.init fs).run env jobs sched).pcs n = .done i) :
    ∀ e ∈ (env.untar (tar n)).1, e.regular = true →
      ∃ c, Holds ((Runs.init fs).run env jobs sched).fs (place j.dir e) c ∧ env.xxh c = env.xxh e.content := by
  obtain ⟨hs, hf⟩ := history_honest hh
  have inv := inv_run ho (fun h => h.elim) ha sched _ (inv_init hs hf ha hv)
  intro e he hr
  have hpc := inv.pc n j hj
  rw [hd] at hpc
  obtain ⟨k, hk⟩ := Option.isSome_iff_exists.1 (hpc e he hr)
  exact ⟨_, ⟨k, hk, rfl⟩, inv.right n j hj e he hr k hk⟩

/-- After any history of extractions at the same time – of whatever packages, into whatever folders, interrupted or not – and of
damage to the cache's contents, every readable entry of the cache's index lists the files of a tarball with that integrity. -/
theorem C91_index_honest (env : Env) (fs : FS) (hh : History env fs) : HonestFiles env fs := fun k idx hk => by
  obtain ⟨t, h1, h2, h3, _⟩ := (history_honest hh).2 k idx hk
  exact ⟨t, h1, h2, h3⟩

/-- What the index says about commands and install scripts stays right too, for extractions that have nothing to do with each
other, if no two manifests have the same content hash. -/
theorem C91_cache_partial (env : Env) (ho : ∀ f, (env.ord f).Perm f) (hc : NoCol env) (fs : FS) (hs : Sane fs) (hh : Honest env fs)
    (jobs : Nat → Option Job) (tar : Nat → Bytes) (ha : Separate env jobs tar) (hv : AllVacant jobs fs) (sched : List Nat) :
    Sane ((Runs.init fs).run env jobs sched).fs ∧ Honest env ((Runs.init fs).run env jobs sched).fs := by
  have inv := inv_run (G := True) ho (fun _ => hc) ha sched _ (inv_init hs (honest_weak hh) ha hv)
  exact ⟨inv.sane, honest_strong trivial inv.honest⟩

/-! ### The linkers' layout -/

/-- a file with an ordinary path that is not in `node_modules` -/
theorem place_plain {dir : Loc} {e : Entry} (hpl : ∀ c ∈ (RPath.components e.header).tail, ∃ s, c = Comp.normal s)
    (hu : (RPath.components e.header).tail.head? ≠ some (.normal kNodeModules)) :
    ∃ l : Loc, place dir e = dir ++ l ∧ l.head? ≠ some kNodeModules := by
  obtain ⟨names, h1, h2⟩ := goTo_append dir _ hpl
  refine ⟨names, h2, fun h => hu ?_⟩
  rw [h1, List.head?_map, h]; rfl

theorem not_in_modules {d l r : Loc} (h : l.head? ≠ some kNodeModules) (hin : Inside (d ++ [kNodeModules]) (d ++ l ++ r)) : l = [] := by
  cases l with
  | nil => rfl
  | cons a l =>
    obtain ⟨x, hx⟩ := hin
    simp only [List.append_assoc, List.cons_append, List.nil_append, List.append_cancel_left_eq, List.cons.injEq] at hx
    exact absurd (by rw [List.head?_cons, hx.1]) h

/-- Packages laid out like this, without bundled dependencies, have nothing to do with each other. -/
theorem laid_apart {env : Env} {jobs : Nat → Option Job} {tar : Nat → Bytes} (hl : Laid jobs)
    (fits : ∀ n j, jobs n = some j → ∀ t, j.Fits env t → t = tar n)
    (plain : ∀ n j, jobs n = some j → Plain (env.untar (tar n)).1)
    (distinct : ∀ n j, jobs n = some j → Distinct j.dir (env.untar (tar n)).1)
    (hu : ∀ n j, jobs n = some j → Unbundled (env.untar (tar n)).1) : Separate env jobs tar := by
  refine ⟨fits, plain, distinct, ?_⟩
  have key : ∀ n j, jobs n = some j → ∀ n' j', jobs n' = some j' → n ≠ n' →
      ∀ e ∈ (env.untar (tar n)).1, e.regular = true → ∀ e' ∈ (env.untar (tar n')).1, e'.regular = true →
        place j.dir e = place j'.dir e' → j.dir.length ≤ j'.dir.length → False := by
    intro n j hj n' j' hj' hne e he hr e' he' hr' hx hlen
    obtain ⟨l, h1, h2⟩ := place_plain (dir := j.dir) (plain n j hj e he hr) (hu n j hj e he hr)
    obtain ⟨l', h1', h2'⟩ := place_plain (dir := j'.dir) (plain n' j' hj' e' he' hr') (hu n' j' hj' e' he' hr')
    have hin : Inside j.dir j'.dir := by
      refine List.prefix_of_prefix_length_le (l₃ := place j.dir e) ?_ ?_ hlen
      · rw [h1]; exact List.prefix_append _ _
      · rw [hx, h1']; exact List.prefix_append _ _
    obtain ⟨hne', hnm⟩ := hl n j hj n' j' hj' hne
    have hin2 : Inside (j.dir ++ [kNodeModules]) (j.dir ++ l ++ []) := by
      rw [List.append_nil, ← h1, hx, h1']
      exact (hnm hin).trans (List.prefix_append _ _)
    have := not_in_modules h2 hin2
    subst this
    have hl2 := List.IsPrefix.length_le hin2
    simp only [List.length_append, List.length_cons, List.length_nil] at hl2
    omega
  intro n j hj n' j' hj' hne e he hr e' he' hr' hx
  rcases Nat.le_total j.dir.length j'.dir.length with h | h
  · exact key n j hj n' j' hj' hne e he hr e' he' hr' hx h
  · exact key n' j' hj' n j hj (Ne.symm hne) e' he' hr' e he hr hx.symm h

/-- For packages laid out as the linkers do it, without bundled dependencies: when an extraction has succeeded, the package's
folder holds, apart from its `node_modules`, exactly the files of the package. -/
theorem C91_exact_partial (env : Env) (ho : ∀ f, (env.ord f).Perm f) (fs : FS) (hh : History env fs)
    (jobs : Nat → Option Job) (tar : Nat → Bytes) (hl : Laid jobs)
    (fits : ∀ n j, jobs n = some j → ∀ t, j.Fits env t → t = tar n)
    (plain : ∀ n j, jobs n = some j → Plain (env.untar (tar n)).1)
    (distinct : ∀ n j, jobs n = some j → Distinct j.dir (env.untar (tar n)).1)
    (hu : ∀ n j, jobs n = some j → Unbundled (env.untar (tar n)).1)
    (hv : AllVacant jobs fs) (sched : List Nat)
    (n : Nat) (j : Job) (hj : jobs n = some j) (i : Integrity)
    (hd : (((Runs.init fs).run env jobs sched).pcs n).outcome = some (some i)) (p : Loc) (hp : Inside j.dir p)
    (hnm : ¬ Inside (j.dir ++ [kNodeModules]) p) :
    let fs' := ((Runs.init fs).run env jobs sched).fs
    (fs'.files p ≠ none ↔ ∃ e ∈ (env.untar (tar n)).1, e.regular = true ∧ place j.dir e = p) ∧
    ∀ e ∈ (env.untar (tar n)).1, e.regular = true → place j.dir e = p → ∃ c, Holds fs' p c ∧ env.xxh c = env.xxh e.content := by
  have ha := laid_apart hl fits plain distinct hu
  have hdone : ((Runs.init fs).run env jobs sched).pcs n = .done i := by
    cases hx : ((Runs.init fs).run env jobs sched).pcs n <;> rw [hx] at hd <;> simp only [PC.outcome] at hd <;> cases hd
    rfl
  have hall := C91_done_partial env ho fs hh jobs tar ha hv sched n j hj i hdone
  refine ⟨⟨fun hne => ?_, ?_⟩, fun e he hr hx => hx ▸ hall e he hr⟩
  · obtain ⟨k, hk⟩ := Option.ne_none_iff_exists'.1 hne
    obtain ⟨n', j', hj', e, he, hr, hx, _⟩ := (C91_always_partial env ho fs hh jobs tar ha hv sched).1 p k ⟨n, j, hj, hp⟩ hk
    by_cases hnn : n = n'
    · subst hnn
      rw [hj] at hj'; cases hj'
      exact ⟨e, he, hr, hx⟩
    · exfalso
      obtain ⟨l, h1, h2⟩ := place_plain (dir := j'.dir) (plain n' j' hj' e he hr) (hu n' j' hj' e he hr)
      have hp' : Inside j'.dir p := by rw [← hx, h1]; exact List.prefix_append _ _
      rcases Nat.le_total j.dir.length j'.dir.length with h | h
      · have hin := List.prefix_of_prefix_length_le hp hp' h
        exact hnm (((hl n j hj n' j' hj' hnn).2 hin).trans hp')
      · have hin := List.prefix_of_prefix_length_le hp' hp h
        have hin2 := ((hl n' j' hj' n j hj (Ne.symm hnn)).2 hin).trans hp
        rw [← hx, h1] at hin2
        have := not_in_modules (r := []) h2 (by rw [List.append_nil]; exact hin2)
        subst this
        have hl2 := List.IsPrefix.length_le hin2
        simp only [List.length_append, List.length_cons, List.length_nil] at hl2
        omega
  · rintro ⟨e, he, hr, hx⟩
    obtain ⟨c, ⟨k, hk, _⟩, _⟩ := hall e he hr
    rw [← hx, hk]
    exact fun h => by cases h

/-! ### The steps of one extraction -/

theorem goes_run {env : Env} {jobs : Nat → Option Job} {n : Nat} {j : Job} (hj : jobs n = some j) {x y : PC × FS}
    (h : Goes env j x y) (pcs : Nat → PC) :
    ∃ k, Runs.run env jobs ⟨x.2, upd pcs n x.1⟩ (List.replicate k n) = ⟨y.2, upd pcs n y.1⟩ := by
  induction h with
  | refl x => exact ⟨0, rfl⟩
  | step _ ih =>
    rename_i x y _
    obtain ⟨k, hk⟩ := ih
    refine ⟨k + 1, ?_⟩
    simp only [List.replicate_succ, Runs.run, List.foldl_cons] at hk ⊢
    rw [← hk]
    congr 1
    simp only [Runs.step, hj, upd_self]
    congr 1
    funext m
    simp only [upd]
    split <;> rfl

/-- An extraction that is not interrupted by others does what `extractToDir` says. -/
theorem C91_alone (env : Env) (jobs : Nat → Option Job) (n : Nat) (j : Job) (hj : jobs n = some j) (fs : FS) :
    ∃ k, let w := (Runs.init fs).run env jobs (List.replicate k n)
      let r := extractToDir env j.dir j.cache j.mode j.expected j.net fs
      w.fs = r.2 ∧ w.pcs n = (match r.1 with | some i => .done i | none => .failed) ∧ ∀ m, m ≠ n → w.pcs m = .start := by
  obtain ⟨k, hk⟩ := goes_run hj (goes_all (env := env) (j := j) fs) (fun _ => .start)
  refine ⟨k, ?_⟩
  have h0 : Runs.init fs = ⟨fs, upd (fun _ => .start) n .start⟩ := by
    simp only [Runs.init, Runs.mk.injEq, true_and]
    funext m; simp [upd]
  rw [h0, hk]
  cases hr : extractToDir env j.dir j.cache j.mode j.expected j.net fs with
  | mk r fs' =>
    cases r with
    | none => exact ⟨rfl, by simp [upd, PC.result], fun m hm => by simp [upd, hm]⟩
    | some i => exact ⟨rfl, by simp [upd, PC.result], fun m hm => by simp [upd, hm]⟩

/-! ### Every extraction ends -/

/-- how far an extraction is from its end -/
def PC.rest : PC → Nat ×ₗ Nat ×ₗ Nat ×ₗ Nat
  | .start => toLex (9, toLex (0, toLex (0, 0)))
  | .linkDir _ todo _ => toLex (8, toLex (0, toLex (0, 2 * todo.length)))
  | .link _ _ _ todo _ => toLex (8, toLex (0, toLex (0, 2 * todo.length + 1)))
  | .evict => toLex (7, toLex (0, toLex (0, 0)))
  | .fetch _ => toLex (6, toLex (0, toLex (0, 0)))
  | .folder _ _ => toLex (5, toLex (0, toLex (0, 0)))
  | .entry _ _ todo _ => toLex (4, toLex (todo.length, toLex (5, 0)))
  | .plain _ _ todo _ => toLex (4, toLex (todo.length + 1, toLex (4, 0)))
  | .commit _ _ todo _ => toLex (4, toLex (todo.length + 1, toLex (4, 0)))
  | .write _ _ todo _ => toLex (4, toLex (todo.length + 1, toLex (3, 0)))
  | .manifest _ _ todo _ => toLex (4, toLex (todo.length + 1, toLex (2, 0)))
  | .redo _ _ todo _ _ l => toLex (4, toLex (todo.length + 1, toLex (1, 2 * l.length)))
  | .redone _ _ todo _ _ _ _ l => toLex (4, toLex (todo.length + 1, toLex (1, 2 * l.length + 1)))
  | .bins _ _ l _ => toLex (2, toLex (0, toLex (0, l.length)))
  | .record _ _ _ => toLex (1, toLex (0, toLex (0, 0)))
  | .done _ | .failed => toLex (0, toLex (0, toLex (0, 0)))

theorem rest_lt {a b c d a' b' c' d' : Nat} (h : a < a' ∨ (a = a' ∧ (b < b' ∨ (b = b' ∧ (c < c' ∨ (c = c' ∧ d < d')))))) :
    (toLex (a, toLex (b, toLex (c, d))) : Nat ×ₗ Nat ×ₗ Nat ×ₗ Nat) < toLex (a', toLex (b', toLex (c', d'))) := by
  simp only [Prod.Lex.toLex_lt_toLex]
  exact h

theorem step_rest (env : Env) (j : Job) (pc : PC) (fs : FS) (h : pc.ended = false) : (j.step env pc fs).1.rest < pc.rest := by
  cases pc with
  | done => cases h
  | failed => cases h
  | _ =>
    simp only [Job.step]
    repeat' split
    all_goals
      simp only [PC.rest, List.length_cons]
      exact rest_lt (by omega)

theorem run_snoc (env : Env) (jobs : Nat → Option Job) (w : Runs) (s : Nat → Nat) (m : Nat) :
    w.run env jobs ((List.range (m + 1)).map s) = (w.run env jobs ((List.range m).map s)).step env jobs (s m) := by
  simp only [Runs.run, List.range_succ, List.map_append, List.map_cons, List.map_nil, List.foldl_append, List.foldl_cons, List.foldl_nil]

/-- Every extraction that is given its turns ends, whatever the others do. -/
theorem C91_ends (env : Env) (jobs : Nat → Option Job) (fs : FS) (s : Nat → Nat) (n : Nat) (j : Job) (hj : jobs n = some j)
    (hfair : ∀ N, ∃ m, N ≤ m ∧ s m = n) :
    ∃ m, (((Runs.init fs).run env jobs ((List.range m).map s)).pcs n).ended = true := by
  have key : ∀ (r : Nat ×ₗ Nat ×ₗ Nat ×ₗ Nat) (N : Nat), (((Runs.init fs).run env jobs ((List.range N).map s)).pcs n).rest = r →
      ∃ m, (((Runs.init fs).run env jobs ((List.range m).map s)).pcs n).ended = true := by
    intro r
    induction r using WellFoundedLT.induction with
    | ind r ih =>
      intro N hN
      obtain ⟨m, hm, hs⟩ := hfair N
      have same : ∀ d, (∀ x, N ≤ x → x < N + d → s x ≠ n) →
          ((Runs.init fs).run env jobs ((List.range (N + d)).map s)).pcs n = ((Runs.init fs).run env jobs ((List.range N).map s)).pcs n := by
        intro d
        induction d with
        | zero => intro _; rfl
        | succ d ihd =>
          intro hx
          rw [← ihd (fun x h1 h2 => hx x h1 (by omega)), ← Nat.add_assoc, run_snoc]
          unfold Runs.step
          have hne : s (N + d) ≠ n := hx _ (by omega) (by omega)
          split
          · rfl
          · exact upd_ne _ _ (Ne.symm hne)
      obtain ⟨m0, hm0, hmin⟩ : ∃ m0, (N ≤ m0 ∧ s m0 = n) ∧ ∀ x, N ≤ x → x < m0 → s x ≠ n := by
        have hex : ∃ m, N ≤ m ∧ s m = n := ⟨m, hm, hs⟩
        classical
        exact ⟨Nat.find hex, Nat.find_spec hex, fun x h1 h2 h3 => Nat.find_min hex h2 ⟨h1, h3⟩⟩
      have h1 := same (m0 - N) (fun x hx1 hx2 => hmin x hx1 (by omega))
      rw [show N + (m0 - N) = m0 by omega] at h1
      by_cases he : (((Runs.init fs).run env jobs ((List.range N).map s)).pcs n).ended = true
      · exact ⟨N, he⟩
      · refine ih _ ?_ (m0 + 1) rfl
        rw [run_snoc, hm0.2]
        unfold Runs.step
        rw [hj]
        simp only [upd_self]
        rw [← hN, h1]
        exact step_rest env j _ _ (by simpa using he)
  exact key _ 0 rfl

/-! ### A machine with some extractions -/

namespace ExR

/-- three packages at the same time: number 6 into one folder, number 2 into another, and number 1 – which has an install
script – into a folder inside the second one's -/
def jobs : Nat → Option Job
  | 0 => some ⟨ExT.d2, true, .hardlink, some (ExT.n 6), ExT.net 6⟩
  | 1 => some ⟨ExT.d3, true, .hardlink, some (ExT.n 2), ExT.net 2⟩
  | 2 => some ⟨ExT.d3 ++ [kNodeModules, ['y']], true, .hardlink, some (ExT.n 1), ExT.net 1⟩
  | _ => none

def tar : Nat → Bytes
  | 0 => [6]
  | 1 => [2]
  | _ => [1]

/-- where package number 6 has been extracted before, and the cached copy of its manifest has been damaged since -/
def fs0 : FS := (extractToDir ExT.env ExT.d1 true .copy (some (ExT.n 6)) (ExT.net 6) ExT.empty).2
def fs1 : FS := { fs0 with content := fun x => if fs0.store (ExT.str [8]) = some x then [99] else fs0.content x }

theorem jobs_cases {n j} (h : jobs n = some j) : n = 0 ∨ n = 1 ∨ n = 2 := by
  match n with
  | 0 => simp
  | 1 => simp
  | 2 => simp
  | _ + 3 => cases h

theorem plainOf (b : Bytes) (h : ∀ e ∈ (ExT.env.untar b).1, ∀ c ∈ (RPath.components e.header).tail,
    (match c with | .normal _ => true | _ => false) = true) : Plain (ExT.env.untar b).1 := by
  intro e he hr c hc
  have := h e he c hc
  cases c <;> simp at this
  exact ⟨_, rfl⟩

theorem apart : Separate ExT.env jobs tar where
  fits n j h t ht := by
    rcases jobs_cases h with rfl | rfl | rfl <;> cases h <;> exact (ExT.n_check _ _).1 ht
  plain n j h := by
    rcases jobs_cases h with rfl | rfl | rfl <;> exact plainOf _ (by decide +kernel)
  distinct n j h := by
    rcases jobs_cases h with rfl | rfl | rfl <;> cases h <;> (unfold Distinct; decide +kernel)
  apart n j h n' j' h' hne := by
    rcases jobs_cases h with rfl | rfl | rfl <;> rcases jobs_cases h' with rfl | rfl | rfl <;>
      first
        | exact absurd rfl hne
        | (cases h; cases h'; decide +kernel)

theorem fs0_history : History ExT.env fs0 := by
  obtain ⟨k, hk, _⟩ := C91_alone ExT.env (fun _ => some ⟨ExT.d1, true, .copy, some (ExT.n 6), ExT.net 6⟩) 0 _ rfl ExT.empty
  have := History.batch (env := ExT.env) ExT.empty (fun _ => some ⟨ExT.d1, true, .copy, some (ExT.n 6), ExT.net 6⟩) (List.replicate k 0)
    (.init _ ExT.empty_sane (fun _ => rfl))
  rw [hk] at this
  exact this

theorem history : History ExT.env fs1 :=
  .other _ _ fs0_history (history_honest fs0_history).1 (fun _ _ h => h)

theorem vacant0 (d : Loc) (h : ¬ (d <+: ExT.d1)) (h2 : ¬ (ExT.d1 <+: d)) : Vacant fs1 d := by
  intro p hp
  refine (C25_network_partial ExT.env ExT.ord_perm ExT.d1 true .copy (some (ExT.n 6)) [.data [6]] ExT.empty
    (by intro b hb; cases hb; unfold Contained; decide +kernel)).1 p ?_
  intro hin
  rcases Nat.le_total d.length ExT.d1.length with hl | hl
  · exact h (List.prefix_of_prefix_length_le hp hin hl)
  · exact h2 (List.prefix_of_prefix_length_le hin hp hl)

theorem vacant : AllVacant jobs fs1 := by
  intro n j h
  rcases jobs_cases h with rfl | rfl | rfl <;> cases h <;> exact vacant0 _ (by decide) (by decide)

/-- turns in rotation -/
def fair : List Nat := (List.replicate 20 [0, 1, 2]).flatten

end ExR

-- all three succeed at the same time, although the first has to fall back to the network and the third has to copy again
example : (((Runs.init ExR.fs1).run ExT.env ExR.jobs ([0, 0, 0, 0, 0] ++ ExR.fair)).pcs 0).outcome = some (some (ExT.n 6)) ∧
    (((Runs.init ExR.fs1).run ExT.env ExR.jobs ([0, 0, 0, 0, 0] ++ ExR.fair)).pcs 1).outcome = some (some (ExT.n 2)) ∧
    (((Runs.init ExR.fs1).run ExT.env ExR.jobs ([0, 0, 0, 0, 0] ++ ExR.fair)).pcs 2).outcome = some (some (ExT.n 1)) := by
  refine ⟨?_, ?_, ?_⟩ <;> decide +kernel

example : Separate ExT.env ExR.jobs ExR.tar ∧ AllVacant ExR.jobs ExR.fs1 ∧ History ExT.env ExR.fs1 :=
  ⟨ExR.apart, ExR.vacant, ExR.history⟩

example : Laid ExR.jobs ∧ ∀ n j, ExR.jobs n = some j → Unbundled (ExT.env.untar (ExR.tar n)).1 := by
  constructor
  · intro n j h n' j' h' hne
    rcases ExR.jobs_cases h with rfl | rfl | rfl <;> rcases ExR.jobs_cases h' with rfl | rfl | rfl <;>
      first
        | exact absurd rfl hne
        | (cases h; cases h'; unfold Inside; exact ⟨by decide, by decide⟩)
  · intro n j h
    rcases ExR.jobs_cases h with rfl | rfl | rfl <;> (unfold Unbundled; decide +kernel)

example : NoCol ExT.env := fun c c' h => by rw [ExT.str_inj c c' h]

-- at a moment when the second package's first file has just been linked
example : Holds ((Runs.init ExR.fs1).run ExT.env ExR.jobs [1, 1, 1, 1, 1, 1]).fs (ExT.d3 ++ [['a']]) [10] :=
  ⟨4, by decide +kernel, by decide +kernel⟩

/-- C91 fails in one respect: an extraction that finds its cached package damaged removes all of that package's files from the
cache, also those that another extraction has just put there.  With turns in rotation two of the three extractions of `ExR` fail,
although what they need is delivered and each of them succeeds if it is run before or after the first. -/
theorem C91_race_fails : ∃ sched,
    (((Runs.init ExR.fs1).run ExT.env ExR.jobs sched).pcs 0).outcome = some (some (ExT.n 6)) ∧
    (((Runs.init ExR.fs1).run ExT.env ExR.jobs sched).pcs 1).outcome = some none ∧
    (((Runs.init ExR.fs1).run ExT.env ExR.jobs sched).pcs 2).outcome = some none ∧
    ∀ n ∈ [1, 2], ∀ s ∈ [List.replicate 20 0 ++ List.replicate 20 n, List.replicate 20 n ++ List.replicate 20 0],
      (((Runs.init ExR.fs1).run ExT.env ExR.jobs s).pcs 0).outcome = some (some (ExT.n 6)) ∧
      (((Runs.init ExR.fs1).run ExT.env ExR.jobs s).pcs n).outcome = some (some (if n = 1 then ExT.n 2 else ExT.n 1)) := by
  refine ⟨ExR.fair, ?_, ?_, ?_, ?_⟩ <;> decide +kernel

/-- a machine on which packages 6 and 2, which share files, are cached; one of the cached files that only package 2 has (`l/b`)
is damaged -/
def ExR.shared : FS :=
  let fs := (extractToDir ExT.env ExT.d2 true .copy (some (ExT.n 2)) (ExT.net 2) ExR.fs0).2
  { fs with content := fun x => if fs.store (ExT.str [11]) = some x then [99] else fs.content x }

/-- C91 fails in another respect: removing a damaged package from the cache breaks cached packages that are not damaged.  Package
6 can be installed from the cache without a network; after an attempt to install package 2 it cannot. -/
theorem C91_evict_fails :
    (extractToDir ExT.env ExT.d3 true .copy (some (ExT.n 6)) none ExR.shared).1 = some (ExT.n 6) ∧
    (extractToDir ExT.env ExT.d3 true .copy (some (ExT.n 6)) none
      (extractToDir ExT.env ExT.d4 true .copy (some (ExT.n 2)) none ExR.shared).2).1 = none := by
  constructor <;> decide +kernel

/-- C91 needs the packages to have different places: when a cached package is installed twice into the same folder at the same
time, with hard links, both succeed, and its files and those of the cache are empty. -/
theorem C91_same_folder_fails :
    let job : Job := ⟨ExT.d2, true, .hardlink, some (ExT.n 6), none⟩
    let w := (Runs.init ExR.fs0).run ExT.env (fun n => if n < 2 then some job else none) (List.replicate 6 [0, 1]).flatten
    (w.pcs 0).outcome = some (some (ExT.n 6)) ∧ (w.pcs 1).outcome = some (some (ExT.n 6)) ∧
    Holds w.fs (ExT.d2 ++ [['a']]) [] ∧ ∃ i, w.fs.store (ExT.str [10]) = some i ∧ w.fs.content i = [] := by
  refine ⟨by decide +kernel, by decide +kernel, ⟨0, by decide +kernel, by decide +kernel⟩, 0, by decide +kernel, by decide +kernel⟩

end Tar
end Oro
