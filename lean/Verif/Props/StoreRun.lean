import Verif.Proofs.StoreRun
import Verif.Props.TarRun
import Verif.Props.Works
import Mathlib.Data.List.Range
/-
C93: a first installation by the isolated linker, down to the accesses to the file system and the cache.
-/

set_option linter.unusedSectionVars false

namespace Oro
namespace Iso
open Hoisted (Bytes Pkgs XOpts tarFor)
variable {P S : Type} [DecidableEq S]
variable {env : Tar.Env} {build : Bytes → Option (Bool × Bool)} {pr : Bytes → Bytes} {pk : Pkgs P} {v : Env} {g : Graph Str P S} {o : XOpts}
  {fetch : P → Option Tar.Integrity × Option (List Tar.Ev)} {tar : P → Bytes} {fs : Tar.FS}

/-- In a first installation nothing fails, and no package is passed over because its folder is there already, at any moment of any
schedule. -/
theorem C93_no_failure (ho : ∀ f, (env.ord f).Perm f) (hcol : Tar.NoCol env) (hs : Tar.Sane fs) (hh : Tar.Honest env fs)
    (h : Start env build pr pk v g o fetch tar fs) (sched : List Nat) (n : Nat) (nd : Node Str P S) (hn : g.nodes[n]? = some nd) :
    ((LRun.init o fs).run env build o v g fetch sched).phase n ≠ .failed ∧
    (n ≠ 0 → ∀ todo dep, ((LRun.init o fs).run env build o v g fetch sched).phase n ≠ .finished none ∧
      ((LRun.init o fs).run env build o v g fetch sched).phase n ≠ .linking none todo ∧
      ((LRun.init o fs).run env build o v g fetch sched).phase n ≠ .making none dep todo ∧
      ((LRun.init o fs).run env build o v g fetch sched).phase n ≠ .placing none dep todo) := by
  have hlt : n < g.nodes.length := by
    by_contra hge
    rw [List.getElem?_eq_none (by omega)] at hn
    cases hn
  have hI := (linv_run ho hcol h (linv_init hs hh h) sched).phase n hlt
  have no : n ≠ 0 → ∀ {w : LRun}, ¬ Ended pk g n none w := by
    rintro h0 w (⟨h1, _⟩ | ⟨_, h1, _⟩)
    · exact h0 h1
    · cases h1
  refine ⟨fun hp => ?_, fun h0 todo dep => ⟨fun hp => ?_, fun hp => ?_, fun hp => ?_, fun hp => ?_⟩⟩
  all_goals rw [hp] at hI
  · exact hI
  · exact no h0 hI
  · exact no h0 hI.1
  · exact no h0 hI.1
  · exact no h0 hI.1

/-- No symbolic link is ever where a package is extracted to or on the way there: that extractions know nothing of links (see the
model) does not matter. -/
theorem C93_links_apart (ho : ∀ f, (env.ord f).Perm f) (hcol : Tar.NoCol env) (hs : Tar.Sane fs) (hh : Tar.Honest env fs)
    (h : Start env build pr pk v g o fetch tar fs) (sched : List Nat) (p text : Loc)
    (hp : ((LRun.init o fs).run env build o v g fetch sched).links p = some text) (n : Nat) (nd : Node Str P S) (j : Tar.Job)
    (hn : g.nodes[n]? = some nd) (hj : jobsFor o v g fetch n = some j) :
    ¬ o.root ++ nmWord :: p <+: j.dir ∧
    ∀ e ∈ (env.untar (tar nd.pkg)).1, e.regular = true → ¬ o.root ++ nmWord :: p <+: Tar.place j.dir e := by
  have hI := linv_run ho hcol h (linv_init hs hh h) sched
  obtain ⟨i, k, hi, hk, rfl, _⟩ := (hI.links p text).1 hp
  have hk := dep_pkg h.tree (past_sub hk)
  obtain ⟨hm, ⟨nd', hn', ht⟩, hdir⟩ := jobsFor_some (tar := tar) hj
  rw [hn] at hn'; cases hn'
  have h1 : ¬ o.root ++ nmWord :: entryFor v g i k <+: j.dir := by
    rw [hdir, rel_prefix]
    exact entry_ne_home h.tree hi hk hm
  refine ⟨h1, fun e he hr hx => ?_⟩
  rw [← ht] at he
  have hP := ((ready_of h).place hj).own he hr
  rcases List.prefix_or_prefix_of_prefix hx hP.1.1 with hy | hy
  · exact h1 hy
  · have := own_entry h.tree hj hi hk (List.prefix_refl _) (Tar.own_between hP.1 hx hy)
    refine entry_ne_home h.tree hi hk hm ?_
    rw [this.2]

/-- When all packages and the project have been dealt with, what is below node_modules is exactly what the tree asks for: the files
of each package's tarball in its folder in the store, one link for each dependency, leading to that folder, and nothing else; the
packages to be rebuilt are those with scripts or commands; and the cache's index is as honest as it was. -/
theorem C93_installed (ho : ∀ f, (env.ord f).Perm f) (hcol : Tar.NoCol env) (hs : Tar.Sane fs) (hh : Tar.Honest env fs)
    (h : Start env build pr pk v g o fetch tar fs) (sched : List Nat)
    (hend : ∀ i nd, g.nodes[i]? = some nd → ∃ x, ((LRun.init o fs).run env build o v g fetch sched).phase i = .finished x) :
    Exact pk v g (seen pr o.root ((LRun.init o fs).run env build o v g fetch sched).runs.fs
      ((LRun.init o fs).run env build o v g fetch sched).links) ∧
    (∀ i nd, i ≠ 0 → g.nodes[i]? = some nd → ((LRun.init o fs).run env build o v g fetch sched).phase i =
      .finished (some (pk.scripts nd.pkg, !(pk.bins nd.pkg).isEmpty))) ∧
    Tar.Honest env ((LRun.init o fs).run env build o v g fetch sched).runs.fs := by
  have hI := linv_run ho hcol h (linv_init hs hh h) sched
  refine ⟨exact_of h hI fun n hn => hend n _ (List.getElem?_eq_getElem hn), fun i nd h0 hi => ?_, Tar.honest_strong trivial hI.fine.inv.honest⟩
  obtain ⟨x, hx⟩ := hend i nd hi
  have := hI.phase i (lt_of_pkg ⟨h0, nd, hi⟩)
  rw [hx] at this
  rcases this with ⟨h1, _⟩ | ⟨_, h1, _⟩
  · exact absurd h1 h0
  · rw [hx, h1]
    unfold whatFor
    rw [hi]

/-! ### and it ends -/

/-- how many steps other than the extraction's are left -/
def LPhase.left (deps : Nat) : LPhase → Nat
  | .waiting => 3 * deps + 5
  | .extracting => 3 * deps + 4
  | .linking _ t => 3 * t.length + 1
  | .making _ _ t => 3 * t.length + 3
  | .placing _ _ t => 3 * t.length + 2
  | .finished _ | .failed => 0

/-- how far a package is from its end -/
def LRun.left (g : Graph Str P S) (w : LRun) (n : Nat) : Nat ×ₗ (Nat ×ₗ Nat ×ₗ Nat ×ₗ Nat) :=
  toLex ((w.phase n).left (depsOf g n).length, (w.runs.pcs n).rest)

theorem left_fst {a b : Nat} {x y : Nat ×ₗ Nat ×ₗ Nat ×ₗ Nat} (h : a < b) : (toLex (a, x) : Nat ×ₗ (Nat ×ₗ Nat ×ₗ Nat ×ₗ Nat)) < toLex (b, y) := by
  simp only [Prod.Lex.toLex_lt_toLex]
  exact .inl h

theorem left_snd {a : Nat} {x y : Nat ×ₗ Nat ×ₗ Nat ×ₗ Nat} (h : x < y) : (toLex (a, x) : Nat ×ₗ (Nat ×ₗ Nat ×ₗ Nat ×ₗ Nat)) < toLex (a, y) := by
  simp only [Prod.Lex.toLex_lt_toLex]
  exact .inr ⟨trivial, h⟩

/-- what is done for one package does not change how far another is -/
theorem left_other {w : LRun} {n m : Nat} (h : n ≠ m) : (w.step env build o v g fetch m).left g n = w.left g n ∧
    (w.step env build o v g fetch m).phase n = w.phase n := by
  unfold LRun.step LRun.left
  repeat' split
  all_goals
    first
      | exact ⟨rfl, rfl⟩
      | simp [Tar.upd_ne _ _ h, pcs_other h]

/-- every step for a package that is not done brings it nearer to its end -/
theorem left_step {w : LRun} {n : Nat} (hn : n < g.nodes.length) (hex : w.phase n = .extracting → ∃ j, jobsFor o v g fetch n = some j)
    (h : ∀ x, w.phase n ≠ .finished x) (hf : w.phase n ≠ .failed) : (w.step env build o v g fetch n).left g n < w.left g n := by
  unfold LRun.step
  rw [if_pos hn]
  unfold LRun.left
  cases hw : w.phase n with
  | waiting =>
    simp only
    repeat' split
    all_goals
      simp only [Tar.upd_self, LPhase.left]
      exact left_fst (by omega)
  | extracting =>
    obtain ⟨j, hj⟩ := hex hw
    simp only [hj]
    have step : ∀ pc, w.runs.pcs n = pc → pc.ended = false → (toLex ((w.phase n).left (depsOf g n).length,
        ((w.runs.step env (jobsFor o v g fetch) n).pcs n).rest) : Nat ×ₗ (Nat ×ₗ Nat ×ₗ Nat ×ₗ Nat)) <
        toLex (LPhase.extracting.left (depsOf g n).length, pc.rest) := by
      intro pc hpc he
      rw [hw]
      refine left_snd ?_
      unfold Tar.Runs.step
      simp only [hj, hpc, Tar.upd_self]
      exact Tar.step_rest env j pc _ he
    cases hpc : w.runs.pcs n with
    | failed =>
      simp only [Tar.upd_self, LPhase.left]
      exact left_fst (by omega)
    | done i =>
      simp only
      split
      all_goals
        simp only [Tar.upd_self, LPhase.left]
        exact left_fst (by omega)
    | _ => exact step _ hpc rfl
  | linking x t =>
    cases t with
    | nil =>
      simp only [Tar.upd_self, LPhase.left]
      exact left_fst (by simp)
    | cons d r =>
      simp only
      split
      all_goals
        simp only [Tar.upd_self, LPhase.left, List.length_cons]
        exact left_fst (by omega)
  | making x d r =>
    simp only
    split
    all_goals
      simp only [Tar.upd_self, LPhase.left]
      exact left_fst (by omega)
  | placing x d r =>
    simp only
    repeat' split
    all_goals
      simp only [Tar.upd_self, LPhase.left]
      exact left_fst (by omega)
  | finished x => exact absurd hw (h x)
  | failed => exact absurd hw hf

theorem lrun_snoc (w : LRun) (l : List Nat) (n : Nat) :
    w.run env build o v g fetch (l ++ [n]) = (w.run env build o v g fetch l).step env build o v g fetch n := by
  simp [LRun.run]

/-- And it comes to that, if every package and the project are given their turns. -/
theorem C93_ends (ho : ∀ f, (env.ord f).Perm f) (hcol : Tar.NoCol env) (hs : Tar.Sane fs) (hh : Tar.Honest env fs)
    (h : Start env build pr pk v g o fetch tar fs) (s : Nat → Nat)
    (hfair : ∀ i nd, g.nodes[i]? = some nd → ∀ N, ∃ m, N ≤ m ∧ s m = i) :
    ∃ M, ∀ m, M ≤ m → ∀ i nd, g.nodes[i]? = some nd →
      ∃ x, ((LRun.init o fs).run env build o v g fetch ((List.range m).map s)).phase i = .finished x := by
  have snoc : ∀ m, (LRun.init o fs).run env build o v g fetch ((List.range (m + 1)).map s) =
      ((LRun.init o fs).run env build o v g fetch ((List.range m).map s)).step env build o v g fetch (s m) := fun m => by
    rw [List.range_succ, List.map_append, List.map_singleton, lrun_snoc]
  have hI := fun m => linv_run ho hcol h (linv_init hs hh h) ((List.range m).map s)
  have stay : ∀ i x m, ((LRun.init o fs).run env build o v g fetch ((List.range m).map s)).phase i = .finished x →
      ((LRun.init o fs).run env build o v g fetch ((List.range (m + 1)).map s)).phase i = .finished x := by
    intro i x m hp
    rw [snoc]
    by_cases he : i = s m
    · rw [← he]
      unfold LRun.step
      split
      · rw [hp]; exact hp
      · exact hp
    · rw [(left_other he).2]; exact hp
  have always : ∀ i x m, ((LRun.init o fs).run env build o v g fetch ((List.range m).map s)).phase i = .finished x → ∀ m', m ≤ m' →
      ((LRun.init o fs).run env build o v g fetch ((List.range m').map s)).phase i = .finished x := by
    intro i x m hp m' hm
    induction m', hm using Nat.le_induction with
    | base => exact hp
    | succ m' _ ih => exact stay _ _ _ ih
  have one : ∀ i nd, g.nodes[i]? = some nd → ∃ m x, ((LRun.init o fs).run env build o v g fetch ((List.range m).map s)).phase i = .finished x := by
    intro i nd hi
    have hlt : i < g.nodes.length := by
      by_contra hge
      rw [List.getElem?_eq_none (by omega)] at hi
      cases hi
    have key : ∀ (r : Nat ×ₗ (Nat ×ₗ Nat ×ₗ Nat ×ₗ Nat)) (N : Nat),
        ((LRun.init o fs).run env build o v g fetch ((List.range N).map s)).left g i = r →
        ∃ m x, ((LRun.init o fs).run env build o v g fetch ((List.range m).map s)).phase i = .finished x := by
      intro r
      induction r using WellFoundedLT.induction with
      | ind r ih =>
        intro N hN
        obtain ⟨m0, hm0, hmin⟩ : ∃ m0, (N ≤ m0 ∧ s m0 = i) ∧ ∀ x, N ≤ x → x < m0 → s x ≠ i := by
          have hex : ∃ m, N ≤ m ∧ s m = i := hfair i nd hi N
          classical
          exact ⟨Nat.find hex, Nat.find_spec hex, fun x h1 h2 h3 => Nat.find_min hex h2 ⟨h1, h3⟩⟩
        have same : ∀ d, N + d ≤ m0 → ((LRun.init o fs).run env build o v g fetch ((List.range (N + d)).map s)).left g i = r := by
          intro d
          induction d with
          | zero => exact fun _ => hN
          | succ d ihd =>
            intro hd
            rw [← Nat.add_assoc, snoc, (left_other (Ne.symm (hmin (N + d) (by omega) (by omega)))).1]
            exact ihd (by omega)
        have h1 := same (m0 - N) (by omega)
        rw [show N + (m0 - N) = m0 by omega] at h1
        by_cases he : ∃ x, ((LRun.init o fs).run env build o v g fetch ((List.range m0).map s)).phase i = .finished x
        · exact ⟨m0, he⟩
        · refine ih _ ?_ (m0 + 1) rfl
          rw [snoc, hm0.2, ← h1]
          have hok := (hI m0).phase i hlt
          refine left_step hlt (fun hp => ?_) (fun x hx => he ⟨x, hx⟩) (fun hp => ?_)
          · rw [hp] at hok
            exact jobsFor_of ⟨hok, nd, hi⟩
          · rw [hp] at hok
            exact hok
    exact key _ 0 rfl
  have all : ∀ N, ∃ M, ∀ m, M ≤ m → ∀ i nd, i < N → g.nodes[i]? = some nd →
      ∃ x, ((LRun.init o fs).run env build o v g fetch ((List.range m).map s)).phase i = .finished x := by
    intro N
    induction N with
    | zero => exact ⟨0, fun _ _ _ _ hlt => absurd hlt (Nat.not_lt_zero _)⟩
    | succ N ih =>
      obtain ⟨M, hM⟩ := ih
      cases hN : g.nodes[N]? with
      | some nd =>
        obtain ⟨M', x, hM'⟩ := one N nd hN
        refine ⟨max M M', fun m hm i nd' hlt hi' => ?_⟩
        rcases Nat.lt_succ_iff_lt_or_eq.1 hlt with hl | rfl
        · exact hM m (le_trans (le_max_left _ _) hm) i nd' hl hi'
        · exact ⟨x, always _ _ _ hM' m (le_trans (le_max_right _ _) hm)⟩
      | none =>
        refine ⟨M, fun m hm i nd' hlt hi' => ?_⟩
        rcases Nat.lt_succ_iff_lt_or_eq.1 hlt with hl | rfl
        · exact hM m hm i nd' hl hi'
        · rw [hN] at hi'; cases hi'
  obtain ⟨M, hM⟩ := all g.nodes.length
  exact ⟨M, fun m hm i nd hi => hM m hm i nd (by
    by_contra hge
    rw [List.getElem?_eq_none (by omega)] at hi
    cases hi) hi⟩

end Iso

namespace Works
open Hoisted (Bytes Pkgs XOpts)
variable {P S : Type} [DecidableEq S]
variable {env : Env Str P S} {lock : Option (LockTree Str P)} {nm : Str} {p0 : P} {m : Manifest Str} {root : Node Str P S} {s : RState Str P S}

/-- So a project works after a first installation by the isolated linker, at this level too, whatever the order of responses: every
requirement finds, over links, a folder with a package that is what it asks for. -/
theorem C93_works (hr : Node.new env.parse nm p0 m true = some root) (hq : RReach env lock root s) (hd : s.done = true)
    {pk : Pkgs P} (hp : Plain env lock m pk) {v : Iso.Env} (hps : PlainStore env lock pk v s.graph)
    {tenv : Tar.Env} {build : Bytes → Option (Bool × Bool)} {pr : Bytes → Bytes} {o : XOpts}
    {fetch : P → Option Tar.Integrity × Option (List Tar.Ev)}
    {tar : P → Bytes} {fs : Tar.FS} (ho : ∀ f, (tenv.ord f).Perm f) (hcol : Tar.NoCol tenv) (hs : Tar.Sane fs) (hh : Tar.Honest tenv fs)
    (h : Iso.Start tenv build pr pk v s.graph o fetch tar fs) (sched : List Nat)
    (hend : ∀ i nd, s.graph.nodes[i]? = some nd →
      ∃ x, ((Iso.LRun.init o fs).run tenv build o v s.graph fetch sched).phase i = .finished x) :
    ProjectWorks env lock pk v (Iso.seen pr o.root ((Iso.LRun.init o fs).run tenv build o v s.graph fetch sched).runs.fs
      ((Iso.LRun.init o fs).run tenv build o v s.graph fetch sched).links) m :=
  C80_store hr hq hd hp hps (Iso.installed_of_exact (Iso.C93_installed ho hcol hs hh h sched hend).1)

end Works
end Oro
