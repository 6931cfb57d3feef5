import Verif.Spec.Life
import Verif.Props.Whole
/- C86: the life of a project, command after command. -/

set_option linter.unusedSectionVars false

namespace Oro
namespace Life
open Cli Whole
open Hoisted (Tree Pkgs Disk)

variable {P S V I J F : Type} [DecidableEq S] [DecidableEq V] [DecidableEq I]
variable {ed : Editing J (Manifest Str) F} {k : Setting P S V I} {c : Call P S} {w : World Nm (Option KDoc) J} {x y : Inside P S}

theorem execute_pkg {N L C T : Type} (o : Opts) (st : Steps N L J C T) (m : C) (w : World N L J) : (execute o st m w).1.pkg = w.pkg := by
  unfold execute
  split
  · split
    · rfl
    · refine andThen_keep (·.pkg) ?_ fun w' hw' => ?_
      · exact (install_lock o st _ _).2
      · unfold stepLock; split <;> exact hw'
  · rfl

/-- what a command starts with -/
def start (c : Call P S) (w : World Nm (Option KDoc) J) : World Nm (Option KDoc) J := if clears c then cleared w else w

/-- the options of the install a command does -/
def optsOf (c : Call P S) : Opts := { c.o with apply := installs c, locked := locked c }

theorem pkg_same {N L : Type} (a : World N L J × Bool) (j : J) (h : a.1.pkg = j) :
    andThen a (fun w => ({ w with pkg := j }, true)) = a := by
  obtain ⟨w, b⟩ := a
  cases b with
  | false => rfl
  | true =>
    subst h
    rfl

/-- every command is an install of the manifest it wants -/
theorem run_eq : run ed k c w = match wants ed c.cmd w.pkg with
    | none => (start c w, false)
    | some j => match ed.corgi j with
      | none => (start c w, false)
      | some m => andThen (execute (optsOf c) (hoisted (k.later c.fetch c.concurrency) c.sch) m (start c w))
          fun w => ({ w with pkg := j }, true) := by
  obtain ⟨cmd, o, fetch, conc, sch⟩ := c
  cases cmd with
  | apply =>
    simp only [run, wants, applyCmd]
    cases ed.corgi w.pkg with
    | none => rfl
    | some m =>
      simp only
      rw [pkg_same _ _ (by rw [execute_pkg]; rfl)]
      rfl
  | reapply =>
    simp only [run, wants]
    rw [reapply_eq]
    unfold applyCmd
    rw [show (cleared w).pkg = w.pkg from rfl]
    cases ed.corgi w.pkg with
    | none => rfl
    | some m =>
      simp only
      rw [pkg_same _ _ (by rw [execute_pkg]; rfl)]
      rfl
  | add kind resolved =>
    simp only [run, wants, addCmd]
    cases ed.read w.pkg with
    | none => rfl
    | some f =>
      simp only [Option.bind_some]
      cases resolved.bind (addAll kind (ed.value f)) with
      | none => rfl
      | some v =>
        simp only [Option.map_some, applyEdited]
        cases ed.corgi (ed.write (ed.withValue f v)) <;> rfl
  | remove names =>
    simp only [run, wants, removeCmd]
    cases ed.read w.pkg with
    | none => rfl
    | some f =>
      simp only [Option.bind_some]
      cases names with
      | none => rfl
      | some v =>
        simp only [Option.map_some, applyEdited]
        cases ed.corgi (ed.write (ed.withValue f (v.foldl removeFrom (ed.value f)))) <;> rfl

theorem start_lock : (start c w).lock = w.lock := by unfold start; split <;> rfl
theorem start_pkg : (start c w).pkg = w.pkg := by unfold start; split <;> rfl

/-- what is known of node_modules once the command has started -/
def startSays (c : Call P S) (x : Inside P S) : Inside P S := if clears c then .fresh else x

theorem says_start (h : Says k w x) : Says k (start c w) (startSays c x) := by
  unfold start startSays
  split
  · exact ⟨nofun, .inl fun _ => rfl⟩
  · exact h

theorem says_looked (h : Says k w x) : Says k (looked w) x := by
  cases x with
  | unknown => trivial
  | fresh =>
    refine ⟨?_, h.2⟩
    show loadActual w.metaFile ≠ .good
    have := h.1
    cases hm : w.metaFile <;> simp_all [loadActual]
  | tree g =>
    obtain ⟨h1, h2, h3, h4⟩ := h
    refine ⟨h1, h2, ?_, h4⟩
    show loadActual w.metaFile = .good
    rw [h3]; rfl

theorem says_other {w' : World Nm (Option KDoc) J} (h : Says k w x) (h1 : w'.nm = w.nm) (h2 : w'.metaFile = w.metaFile) : Says k w' x := by
  cases x with
  | unknown => trivial
  | fresh =>
    refine ⟨by rw [h2]; exact h.1, ?_⟩
    rw [h1]; exact h.2
  | tree g =>
    obtain ⟨a1, a2, a3, a4⟩ := h
    refine ⟨a1, by rw [h1]; exact a2, by rw [h2]; exact a3, by rw [h1]; exact a4⟩

/-- installing a tree -/
theorem install_says {k' : Setting P S V I} {o : Opts} {m : Manifest Str} {sch : List (REvent S)} {g : Graph Str P S}
    (hpk : k'.pk = k.pk) (hv : k'.v = k.v) (hc : k'.c = k.c) (hto : k'.toPackage = k.toPackage)
    (hs : Says k w x) (ha : o.apply = true) (hlo : o.lockfileOnly = false) (hq : Whole.Quiet o k')
    (hr : Whole.resolve k' sch m o.locked w.lock = some g)
    (hp : Works.Plain k'.env ((lockOf k.c w.lock).map (·.tree k.toPackage)) m k.pk)
    (hn : ∀ (i : Nat) (nd : Node Str P S), i ≠ 0 → g.nodes[i]? = some nd → k.v.pkgName nd.pkg = nd.name)
    (hx : Changes k x g) :
    ∃ w' l, execute o (hoisted k' sch) m w = (w', true) ∧ Says k w' (.tree g) ∧ toLockfile k.v g = some l ∧
      w'.nm.doc = l.toKdl k.c ∧ w'.lock = (if o.lockfile then some (l.toKdl k.c) else w.lock) ∧ w'.pkg = w.pkg := by
  obtain ⟨root, s0, a1, a2, a3, rfl, _⟩ := rrun_done hr
  rw [hc, hto] at a2
  have hi := Works.installable a1 a2 hp
  have hg0 := (a2.sinv ⟨[], k'.rootPkg m, m, a1⟩).pinv.ginv
  obtain ⟨x1, _⟩ := execute_hoisted (J := J) ha hlo sch m w hr
  rw [hpk, hv, hc] at x1
  have key : ∃ r, Hoisted.applyTree k.pk k.v s0.graph (disk k.c (loadActual w.metaFile) w.nm) = some r ∧
      Hoisted.Installed k.pk s0.graph r.1.tree ∧ Hoisted.Recorded k.v s0.graph r.1.metaFile := by
    cases x with
    | unknown => exact hx.elim
    | fresh => exact Hoisted.C33_fresh k.pk k.v s0.graph hi _ (looked_fresh (k := k) hs)
    | tree g0 =>
      obtain ⟨b1, b2, b3, l, l', b4, b5, b6, b7⟩ := hs
      have hd : disk k.c (loadActual w.metaFile) w.nm = ⟨w.nm.tree, some l'.packages⟩ := by
        unfold disk
        rw [b3]
        simp [loadActual, b6, Except.toOption]
      rw [hd]
      exact Hoisted.C33_partial k.pk k.v g0 s0.graph b1 hi _ l'.packages b2 rfl (hx _ b7)
  obtain ⟨r, r1, r2, r3⟩ := key
  obtain ⟨l, _, hl, _⟩ := r3
  obtain ⟨w', z1, ⟨z2, z3, z4, z5, z6, _⟩, z7⟩ := x1 r l r1 hl (.inl hq)
  rw [hc] at z4 z5
  obtain ⟨l', b1, b2⟩ := recorded_read (c := k.c) hg0.folderTree hg0.ord hn hl
  refine ⟨w', l, z1, ⟨hi, by rw [z3]; exact r2, z2, l, l', hl, z4, ?_, b2⟩, hl, z4, z5, z6⟩
  rw [z4]; exact b1

/-- resolving fails: nothing happens -/
theorem execute_unresolved {o : Opts} {m : Manifest Str} {sch : List (REvent S)} {k' : Setting P S V I} (ha : o.apply = true)
    (hr : Whole.resolve k' sch m o.locked w.lock = none) : execute o (hoisted k' sch) m w = (looked w, false) := by
  unfold execute
  rw [if_pos ha]
  have : (hoisted (J := J) k' sch).resolve m o.locked w.lock (loadActual w.metaFile) w.nm = none := hr
  rw [this]

/-- only the lockfile is wanted -/
theorem execute_lockOnly {o : Opts} {m : Manifest Str} {sch : List (REvent S)} {k' : Setting P S V I} {g : Graph Str P S} (ha : o.apply = true)
    (hlo : o.lockfileOnly = true) (hr : Whole.resolve k' sch m o.locked w.lock = some g) :
    execute o (hoisted k' sch) m w = ({ looked w with lock := if o.lockfile then document k' g else w.lock }, true) := by
  unfold execute
  rw [if_pos ha]
  have : (hoisted (J := J) k' sch).resolve m o.locked w.lock (loadActual w.metaFile) w.nm = some g := hr
  rw [this]
  simp only [stepInstall, hlo, if_true]
  rw [andThen_true rfl]
  unfold stepLock
  split <;> rfl

theorem quiet_later (h : Whole.Quiet c.o k) : Whole.Quiet (optsOf c) (k.later c.fetch c.concurrency) := h

/-- C86, one command. Whatever is known of node_modules:
- a command that resolves and is to install succeeds; then node_modules has exactly the packages of the tree, the meta file describes
  the tree, the lockfile is that of the tree (unless it is not wanted), and package.json is as the command wants it;
- a command that does not resolve fails, and changes neither package.json nor the lockfile nor – unless it removes it first –
  node_modules;
- a command that is not to install leaves node_modules alone (`reapply` removes it). -/
theorem C86_command_partial (hs : Says k w x) (hf : Fits ed k c w x) :
    (∀ m g, installs c = true → c.o.lockfileOnly = false → ResolvesTo ed k c w m g →
      ∃ w' l, run ed k c w = (w', true) ∧ Says k w' (.tree g) ∧ toLockfile k.v g = some l ∧ w'.nm.doc = l.toKdl k.c ∧
        w'.lock = (if c.o.lockfile then some (l.toKdl k.c) else w.lock) ∧ some w'.pkg = wants ed c.cmd w.pkg) ∧
    (installs c = true → (∀ m g, ¬ ResolvesTo ed k c w m g) →
      ∃ w', run ed k c w = (w', false) ∧ SameButModules w' w ∧ (if clears c then Gone w' else w'.nm = w.nm)) ∧
    (installs c = false → ∃ w' b, run ed k c w = (w', b) ∧ w'.nm = w.nm ∧ w'.metaFile = w.metaFile ∧ w'.lock = w.lock ∧
      (b = true → some w'.pkg = wants ed c.cmd w.pkg) ∧ (b = false → w' = w)) ∧
    (∀ m g, installs c = true → c.o.lockfileOnly = true → ResolvesTo ed k c w m g →
      ∃ w', run ed k c w = (w', true) ∧ w'.lock = (if c.o.lockfile then document k g else w.lock) ∧ some w'.pkg = wants ed c.cmd w.pkg ∧
        (if clears c then Gone w' else w'.nm = w.nm)) := by
  have hss := says_start (c := c) hs
  refine ⟨?_, ?_, ?_, ?_⟩
  · intro m g h1 h2 hr
    obtain ⟨f1, f2⟩ := hf
    obtain ⟨e1, e2, e3⟩ := f2 m g h1 h2 hr
    obtain ⟨r1, r2⟩ := hr
    obtain ⟨j, j1, j2⟩ := Option.bind_eq_some_iff.1 r1
    rw [run_eq, j1]
    simp only [j2]
    obtain ⟨w', l, i1, i2, i3, i4, i5, i6⟩ := install_says (k' := k.later c.fetch c.concurrency) (o := optsOf c) (w := start c w)
      (k := k) rfl rfl rfl rfl hss h1 h2 (quiet_later f1) (by rw [start_lock]; exact r2) (by rw [start_lock]; exact e1) e2 (by
        unfold startSays
        cases hc : clears c with
        | true => trivial
        | false => simpa using e3 hc)
    rw [i1, andThen_true rfl]
    exact ⟨_, l, rfl, says_other i2 rfl rfl, i3, i4, by rw [← start_lock (c := c) (w := w)]; exact i5, rfl⟩
  · intro h1 hr
    have same : SameButModules (start c w) w := by unfold start; split <;> exact ⟨rfl, rfl, rfl⟩
    have gone : if clears c then Gone (start c w) else (start c w).nm = w.nm := by
      cases hc : clears c <;> simp [start, hc, cleared, Gone]
    rw [run_eq]
    cases hw : wants ed c.cmd w.pkg with
    | none => exact ⟨_, rfl, same, gone⟩
    | some j =>
      simp only
      cases hj : ed.corgi j with
      | none => exact ⟨_, rfl, same, gone⟩
      | some m =>
        simp only
        have hres : Whole.resolve (k.later c.fetch c.concurrency) c.sch m (optsOf c).locked (start c w).lock = none := by
          cases hg : Whole.resolve (k.later c.fetch c.concurrency) c.sch m (optsOf c).locked (start c w).lock with
          | none => rfl
          | some g => exact absurd ⟨by rw [hw]; exact hj, by rw [start_lock] at hg; exact hg⟩ (hr m g)
        rw [execute_unresolved (o := optsOf c) h1 hres]
        refine ⟨_, rfl, same, ?_⟩
        cases hc : clears c with
        | true =>
          simp only [if_true]
          refine ⟨?_, ?_⟩
          · simp [looked, start, hc, cleared, loadActual]
          · simp [looked, start, hc, cleared]
        | false => simp [looked, start, hc]
  · intro h1
    have hc : clears c = false := by
      obtain ⟨cmd, o, fetch, conc, sch⟩ := c
      cases cmd <;> first | rfl | (simp [installs] at h1)
    have hst : start c w = w := by simp [start, hc]
    rw [run_eq, hst]
    cases hw : wants ed c.cmd w.pkg with
    | none => exact ⟨w, false, rfl, rfl, rfl, rfl, nofun, fun _ => rfl⟩
    | some j =>
      simp only
      cases hj : ed.corgi j with
      | none => exact ⟨w, false, rfl, rfl, rfl, rfl, nofun, fun _ => rfl⟩
      | some m =>
        have : execute (optsOf c) (hoisted (k.later c.fetch c.concurrency) c.sch) m w = (w, true) := by
          unfold execute
          rw [if_neg (by simp [optsOf, h1])]
        simp only
        rw [this, andThen_true rfl]
        exact ⟨_, true, rfl, rfl, rfl, rfl, fun _ => rfl, nofun⟩
  · intro m g h1 h2 hr
    obtain ⟨r1, r2⟩ := hr
    obtain ⟨j, j1, j2⟩ := Option.bind_eq_some_iff.1 r1
    rw [run_eq, j1]
    simp only [j2]
    rw [execute_lockOnly (o := optsOf c) h1 h2 (by rw [start_lock]; exact r2), andThen_true rfl]
    refine ⟨_, rfl, ?_, rfl, ?_⟩
    · rw [← start_lock (c := c) (w := w)]; rfl
    · cases hc : clears c with
      | true => simp [looked, start, hc, cleared, Gone, loadActual]
      | false => simp [looked, start, hc]

theorem says_run (hs : Says k w x) (hf : Fits ed k c w x) (ht : Then ed k c w x y) : Says k (run ed k c w).1 y := by
  obtain ⟨h1, h2, h3, h4⟩ := C86_command_partial hs hf
  cases ht with
  | installed m g a1 a2 a3 =>
    obtain ⟨w', l, b1, b2, _⟩ := h1 m g a1 a2 a3
    rw [b1]; exact b2
  | removed a1 a2 =>
    have hi : installs c = true := by
      obtain ⟨cmd, o, fetch, conc, sch⟩ := c
      cases cmd <;> first | rfl | (simp [clears] at a1)
    have gone : ∀ w' : World Nm (Option KDoc) J, Gone w' → Says k w' .fresh := fun w' h => ⟨by rw [h.1]; exact nofun, .inl h.2⟩
    by_cases hr : ∃ m g, ResolvesTo ed k c w m g
    · obtain ⟨m, g, hr⟩ := hr
      rcases a2 with a2 | a2
      · obtain ⟨w', b1, _, _, b2⟩ := h4 m g hi a2 hr
        rw [if_pos a1] at b2
        rw [b1]; exact gone _ b2
      · exact absurd hr (a2 m g)
    · obtain ⟨w', b1, _, b2⟩ := h2 hi (fun m g h => hr ⟨m, g, h⟩)
      rw [if_pos a1] at b2
      rw [b1]; exact gone _ b2
  | left a1 a2 =>
    have hst : start c w = w := by simp [start, a1]
    rw [run_eq, hst]
    cases hw : wants ed c.cmd w.pkg with
    | none => exact hs
    | some j =>
      simp only
      cases hj : ed.corgi j with
      | none => exact hs
      | some m =>
        simp only
        have key : Says k (execute (optsOf c) (hoisted (k.later c.fetch c.concurrency) c.sch) m w).1 x := by
          cases hi : installs c with
          | false =>
            unfold execute
            rw [if_neg (by simp [optsOf, hi])]
            exact hs
          | true =>
            cases hg : Whole.resolve (k.later c.fetch c.concurrency) c.sch m (optsOf c).locked w.lock with
            | none => rw [execute_unresolved (o := optsOf c) hi hg]; exact says_looked hs
            | some g =>
              have hres : ResolvesTo ed k c w m g := ⟨by rw [hw]; exact hj, hg⟩
              rcases a2 with a2 | a2 | a2
              · rw [hi] at a2; cases a2
              · rw [execute_lockOnly (o := optsOf c) hi a2 hg]
                exact says_other (says_looked hs) rfl rfl
              · exact absurd hres (a2 m g)
        revert key
        generalize execute (optsOf c) (hoisted (k.later c.fetch c.concurrency) c.sch) m w = a
        intro key
        obtain ⟨a, b⟩ := a
        cases b with
        | false => exact key
        | true => exact says_other key rfl rfl

/-- C86, partially: at every moment of a project's life, node_modules is what the history of commands says. -/
theorem C86_life_partial (h : Lived ed k w x) : Says k w x := by
  induction h with
  | new w h => exact h
  | anything w => trivial
  | edited w x pkg lock _ ih => exact says_other ih rfl rfl
  | command w x y c _ hf ht ih => exact says_run ih hf ht

/-- C86: every command can be run at any moment, and there is something to be said of node_modules after it. -/
theorem C86_goes_on (w : World Nm (Option KDoc) J) (x : Inside P S) (c : Call P S) : ∃ y, Then ed k c w x y := by
  by_cases hr : ∃ m g, ResolvesTo ed k c w m g
  · obtain ⟨m, g, hr⟩ := hr
    cases hi : installs c with
    | false =>
      refine ⟨x, .left ?_ (.inl hi)⟩
      obtain ⟨cmd, o, fetch, conc, sch⟩ := c
      cases cmd <;> first | rfl | (simp [installs] at hi)
    | true =>
      cases hlo : c.o.lockfileOnly with
      | false => exact ⟨_, .installed m g hi hlo hr⟩
      | true =>
        cases hc : clears c with
        | true => exact ⟨_, .removed hc (.inl hlo)⟩
        | false => exact ⟨_, .left hc (.inr (.inl hlo))⟩
  · have hr' : ∀ m g, ¬ ResolvesTo ed k c w m g := fun m g h => hr ⟨m, g, h⟩
    cases hc : clears c with
    | true => exact ⟨_, .removed hc (.inr hr')⟩
    | false => exact ⟨_, .left hc (.inr (.inr hr'))⟩

/-- C86 and C80: at any moment of a project's life, after a command that installs what it resolves to, and whose links load what they
should (C01), the project works. -/
theorem C86_works_partial (v : Iso.Env) (hl : Lived ed k w x) (hf : Fits ed k c w x) {m : Manifest Str} {g : Graph Str P S} (hi : installs c = true)
    (hlo : c.o.lockfileOnly = false) (hr : ResolvesTo ed k c w m g) (hll : LinksLoad g) :
    ∃ w', run ed k c w = (w', true) ∧ Works.ProjectWorks (k.later c.fetch c.concurrency).env
      ((lockOf k.c w.lock).map (·.tree k.toPackage)) k.pk v w'.nm.tree m := by
  obtain ⟨w', l, h1, h2, _⟩ := (C86_command_partial (C86_life_partial hl) hf).1 m g hi hlo hr
  obtain ⟨root, s0, a1, a2, a3, rfl, _⟩ := rrun_done hr.2
  exact ⟨w', h1, Works.C80_installed a1 a2 a3 hll (hf.2 m _ hi hlo hr).1 h2.2.1⟩

end Life
end Oro
