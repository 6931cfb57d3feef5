import Verif.Proofs.Whole
import Verif.Props.Works
/- C81 and C82, for the commands `oro apply` and `oro reapply`. -/

set_option linter.unusedSectionVars false

namespace Oro
namespace Whole
open Hoisted (Tree Pkgs Disk)
open Cli

variable {P S V I J : Type} [DecidableEq S] [DecidableEq V] [DecidableEq I]
variable {k : Setting P S V I} {o : Opts} {w w1 : World Nm (Option KDoc) J} {readCorgi : J → Option (Manifest Str)} {m : Manifest Str}
  {sch : List (REvent S)} {e : Iso.Env} {order : Graph Str P S → List Nat}

theorem looked_fresh (hf : FreshProject w) : Hoisted.Fresh (disk k.c (loadActual w.metaFile) w.nm) := by
  obtain ⟨h1, h2⟩ := hf
  refine ⟨?_, h2⟩
  unfold disk
  rw [if_neg]
  unfold loadActual
  cases hm : w.metaFile <;> simp_all

/-- nothing fails while steps cannot fail -/
theorem rrun_total {env : Env Str P S} {lock : Option (LockTree Str P)} {root : Node Str P S}
    (h : ∀ s ev r, RReach env lock root s → rstep env lock s ev = some r → ∃ s', r = .ok s') :
    ∀ (sch : List (REvent S)) (s : RState Str P S) r, RReach env lock root s → rrun env lock s sch = some r →
      ∃ s', r = .ok s' ∧ RReach env lock root s' := by
  intro sch
  induction sch with
  | nil => intro s r hr he; cases he; exact ⟨s, rfl, hr⟩
  | cons a l ih =>
    intro s r hr he
    simp only [rrun] at he
    cases hs : rstep env lock s a with
    | none => rw [hs] at he; cases he
    | some x =>
      rw [hs] at he
      obtain ⟨s', rfl⟩ := h s a x hr hs
      exact ih s' r (.step _ hr hs) he

/-- What is assumed of the tree a first apply resolves: what requirements load is what they are linked to (C01), what the registry
answered to a requirement satisfies it, no requirement is also met by another package around, and everything can be read back from the lockfile. -/
structure Sound (k : Setting P S V I) (g : Graph Str P S) : Prop where
  links : LinksLoad g
  answers : Answered k.env g
  unambiguous : Unambiguous k.env g
  reads : Again.ReadsBack k.env k.v k.toPackage g
  names : ∀ (i : Nat) (nd : Node Str P S), i ≠ 0 → g.nodes[i]? = some nd → k.v.pkgName nd.pkg = nd.name

/-- the second resolve, from the lockfile of the first -/
theorem resolve_again {g : Graph Str P S} {file : Option KDoc} {locked : Bool} {l : Lockfile V I} (hm : m.Proper)
    (h1 : resolve k sch m locked file = some g) (hs : Sound k g) (hl : toLockfile k.v g = some l)
    (fetch : S → Option (P × Manifest Str)) (concurrency : Nat) (sch' : List (REvent S))
    (he : Ends (k.later fetch concurrency) sch' m (some (l.toKdl k.c))) :
    ∃ s root l' , resolve (k.later fetch concurrency) sch' m false (some (l.toKdl k.c)) = some s.graph ∧
      Node.new k.env.parse [] (k.rootPkg m) m true = some root ∧ Lockfile.fromKdl k.c (l.toKdl k.c) = .ok l' ∧
      RReach { k.env with fetch := fetch, concurrency := concurrency } (some (l'.tree k.toPackage)) root s ∧ s.done = true := by
  obtain ⟨root, s0, a1, a2, a3, rfl, _⟩ := rrun_done h1
  have hr0 : IsRoot k.env root := ⟨[], k.rootPkg m, m, a1⟩
  have hg := (a2.sinv hr0).pinv.ginv
  obtain ⟨l', b1, _⟩ := recorded_read (c := k.c) hg.folderTree hg.ord hs.names hl
  have hlk : lockOf k.c (some (l.toKdl k.c)) = some l' := by simp [lockOf, b1, Except.toOption]
  obtain ⟨r, c1, c2⟩ := he root a1
  have c1' : rrun { k.env with fetch := fetch, concurrency := concurrency } (some (l'.tree k.toPackage)) (rinit root) sch' = some r := by
    have : lockOf (k.later fetch concurrency).c (some (l.toKdl k.c)) = some l' := hlk
    rw [this] at c1
    exact c1
  obtain ⟨s, rfl, hrs⟩ := rrun_total (fun s ev r hr he =>
    (Again.C81_resolve_partial a1 hm a2 a3 hs.links hs.answers hs.unambiguous hs.reads hl b1 fetch concurrency hr).2.1 ev r he) sch' _ _ .init c1'
  refine ⟨s, root, l', ?_, a1, b1, hrs, c2 s rfl⟩
  unfold resolve
  have e1 : Node.new (k.later fetch concurrency).env.parse [] ((k.later fetch concurrency).rootPkg m) m true = some root := a1
  have e2 : lockOf (k.later fetch concurrency).c (some (l.toKdl k.c)) = some l' := hlk
  have e3 : rrun (k.later fetch concurrency).env ((lockOf (k.later fetch concurrency).c (some (l.toKdl k.c))).map
      (·.tree (k.later fetch concurrency).toPackage)) (rinit root) sch' = some (.ok s) := by rw [e2]; exact c1'
  rw [e1, Option.bind_some, e3]
  simp [c2 s rfl, finish]

theorem apply_cmd {st : Steps Nm (Option KDoc) J (Manifest Str) (Graph Str P S)} (hread : readCorgi w.pkg = some m) :
    applyCmd readCorgi o st w = execute { o with apply := true } st m w := by
  unfold applyCmd; rw [hread]

/-- it succeeded, so it resolved something -/
theorem resolved {st : Steps Nm (Option KDoc) J (Manifest Str) (Graph Str P S)} (hread : readCorgi w.pkg = some m)
    (hr : ∀ f mf n, st.resolve m o.locked f mf n = resolve k sch m o.locked f)
    (h1 : applyCmd readCorgi o st w = (w1, true)) : ∃ g, resolve k sch m o.locked w.lock = some g := by
  rw [apply_cmd hread] at h1
  unfold execute at h1
  rw [if_pos rfl] at h1
  dsimp only at h1
  rw [hr] at h1
  cases hg : resolve k sch m o.locked w.lock with
  | none => rw [hg] at h1; cases h1
  | some g => exact ⟨g, rfl⟩

/-- C81, partially, for the command `oro apply` with the hoisted linker. After an `oro apply` that succeeded in a project without
node_modules (or with one that has no readable meta file), a second one – however the registry has changed, in whatever order things
happen – succeeds, leaves package.json, the lockfile and the meta file as they are, changes nothing in node_modules, commands apart, and
has no scripts to run. -/
theorem C81_command_hoisted_partial (hread : readCorgi w.pkg = some m) (hlo : o.lockfileOnly = false) (hlf : o.lockfile = true)
    (hq : Quiet o k) (hf : FreshProject w)
    (hp : Works.Plain k.env ((lockOf k.c w.lock).map (·.tree k.toPackage)) m k.pk)
    (hs : ∀ g, resolve k sch m o.locked w.lock = some g → Sound k g)
    (h1 : applyCmd readCorgi o (hoisted k sch) w = (w1, true)) :
    (∃ g, resolve k sch m o.locked w.lock = some g ∧ Hoisted.Installed k.pk g w1.nm.tree) ∧
    ∀ (fetch : S → Option (P × Manifest Str)) (concurrency : Nat) (sch' : List (REvent S)) (o' : Opts),
      o'.lockfileOnly = false → o'.locked = false → Ends (k.later fetch concurrency) sch' m w1.lock →
      ∃ w2, applyCmd readCorgi o' (hoisted (k.later fetch concurrency) sch') w1 = (w2, true) ∧
        w2.pkg = w1.pkg ∧ w2.lock = w1.lock ∧ w2.metaFile = w1.metaFile ∧ w2.nm.doc = w1.nm.doc ∧ w2.nm.rebuild = [] ∧
        ∀ p, ¬ Hoisted.InBin p → w2.nm.tree p = w1.nm.tree p := by
  obtain ⟨g, hg⟩ := resolved hread (fun _ _ _ => rfl) h1
  obtain ⟨root, s0, a1, a2, a3, rfl, _⟩ := rrun_done hg
  have hsg := hs _ hg
  rw [apply_cmd hread] at h1
  obtain ⟨x1, x2⟩ := execute_hoisted (J := J) (o := { o with apply := true }) rfl hlo sch m w hg
  obtain ⟨r, l, y1, y2⟩ := x2 (by rw [h1])
  obtain ⟨w', z1, ⟨z2, z3, z4, z5, z6, _⟩, z7⟩ := x1 r l y1 y2 (.inl hq)
  rw [h1] at z1
  cases z1
  have hr0 : IsRoot k.env root := ⟨[], k.rootPkg m, m, a1⟩
  have hg0 := (a2.sinv hr0).pinv.ginv
  obtain ⟨l', b1, b2⟩ := recorded_read (c := k.c) hg0.folderTree hg0.ord hsg.names y2
  obtain ⟨r0, c1, c2, c3⟩ := Again.C81_hoisted_partial a1 hp a2 a3 hsg.links hsg.answers hsg.unambiguous hsg.reads y2 b1 _ (looked_fresh (k := k) hf)
  have : r0 = r := by rw [c1] at y1; exact Option.some.inj y1
  subst this
  refine ⟨⟨_, hg, by rw [z3]; exact c2⟩, fun fetch concurrency sch' o' ho1 ho2 hend => ?_⟩
  have hlock : w1.lock = some (l.toKdl k.c) := by rw [z5]; exact if_pos hlf
  rw [hlock] at hend
  obtain ⟨s, root', l'', d1, d2, d3, d4, d5⟩ := resolve_again hp.project.1 hg hsg y2 fetch concurrency sch' hend
  rw [a1] at d2; cases d2
  rw [b1] at d3; cases d3
  obtain ⟨ha, l2, q1, q2⟩ := Again.alike_again a1 hp.project.1 a2 a3 hsg.links hsg.answers hsg.unambiguous hsg.reads.names hsg.reads.specs
    hsg.reads.packages y2 b1 fetch concurrency d4 d5
  have e1' := C14_canonical k.c (toLockfile_wf q1) (toLockfile_wf y2) q2
  have hi := Works.installable a1 a2 hp
  have hgs := (d4.sinv (env := { k.env with fetch := fetch, concurrency := concurrency }) ⟨[], k.rootPkg m, m, a1⟩).pinv.ginv
  have hdisk : disk k.c (loadActual w1.metaFile) w1.nm = ⟨r0.1.tree, some l'.packages⟩ := by
    unfold disk
    rw [z2, z3, z4]
    simp [loadActual, b1, Except.toOption]
  obtain ⟨_, r1, f1, f2, f3, f4, f5⟩ := Hoisted.C33_again k.pk k.v s.graph (ha.installable hi hgs.folderTree hgs.ord) ⟨r0.1.tree, some l'.packages⟩
    (ha.installed hi.tree hi.order hgs.folderTree hgs.ord c2) (Again.recorded_same y2 b2 q1 q2)
  obtain ⟨g1, _⟩ := execute_hoisted (J := J) (k := k.later fetch concurrency) (o := { o' with apply := true }) rfl ho1 sch' m w1 (g := s.graph)
    (by rw [hlock]; simp only [ho2]; exact d1)
  have hdisk' : disk (k.later fetch concurrency).c (loadActual w1.metaFile) w1.nm = ⟨r0.1.tree, some l'.packages⟩ := hdisk
  obtain ⟨w2, i1, ⟨i2, i3, i4, i5, i6, i7⟩, i8⟩ := g1 r1 l2 (by rw [hdisk']; exact f1) q1 (.inr f3)
  refine ⟨w2, ?_, i6, ?_, by rw [i2, z2], ?_, by rw [i8, f3], fun p hpb => ?_⟩
  · rw [apply_cmd (m := m) (by rw [z6]; exact hread)]; exact i1
  · rw [i5, hlock]
    have : Lockfile.toKdl (k.later fetch concurrency).c l2 = Lockfile.toKdl k.c l := e1'
    rw [this]; split <;> rfl
  · rw [i4, z4]; exact e1'
  · rw [i3, z3]; exact f4 p hpb

/-- C81, partially, for the command `oro apply` with the isolated linker: as above, and nothing at all changes in node_modules. -/
theorem C81_command_isolated_partial (hread : readCorgi w.pkg = some m) (hlo : o.lockfileOnly = false) (hlf : o.lockfile = true)
    (hq : Quiet o k) (hf : FreshProject w)
    (hp : Works.Plain k.env ((lockOf k.c w.lock).map (·.tree k.toPackage)) m k.pk)
    (hps : ∀ g, resolve k sch m o.locked w.lock = some g →
      Works.PlainStore k.env ((lockOf k.c w.lock).map (·.tree k.toPackage)) k.pk e g ∧ Iso.PlainCommands k.pk g)
    (hs : ∀ g, resolve k sch m o.locked w.lock = some g → Sound k g)
    (ho : ∀ g, Iso.Order g (order g))
    (h1 : applyCmd readCorgi o (isolated k e order sch) w = (w1, true)) :
    (∃ g, resolve k sch m o.locked w.lock = some g ∧ Iso.Installed k.pk e g w1.nm.tree) ∧
    ∀ (fetch : S → Option (P × Manifest Str)) (concurrency : Nat) (sch' : List (REvent S)) (o' : Opts),
      o'.lockfileOnly = false → o'.locked = false → Ends (k.later fetch concurrency) sch' m w1.lock →
      ∃ w2, applyCmd readCorgi o' (isolated (k.later fetch concurrency) e order sch') w1 = (w2, true) ∧
        w2.pkg = w1.pkg ∧ w2.lock = w1.lock ∧ w2.metaFile = w1.metaFile ∧ w2.nm.doc = w1.nm.doc ∧ w2.nm.rebuild = [] ∧
        w2.nm.tree = w1.nm.tree := by
  obtain ⟨g, hg⟩ := resolved hread (fun _ _ _ => rfl) h1
  obtain ⟨root, s0, a1, a2, a3, rfl, _⟩ := rrun_done hg
  have hsg := hs _ hg
  obtain ⟨hps1, hps2⟩ := hps _ hg
  rw [apply_cmd hread] at h1
  obtain ⟨x1, x2⟩ := execute_isolated (J := J) (o := { o with apply := true }) rfl hlo e order sch m w hg
  obtain ⟨y, z, l, y0, y1, y2⟩ := x2 hq (by rw [h1])
  obtain ⟨w', z1, ⟨z2, z3, z4, z5, z6, _⟩, z7⟩ := x1 y z l y0 y1 y2 (.inl hq)
  rw [h1] at z1
  cases z1
  have hr0 : IsRoot k.env root := ⟨[], k.rootPkg m, m, a1⟩
  have hg0 := (a2.sinv hr0).pinv.ginv
  obtain ⟨l', b1, b2⟩ := recorded_read (c := k.c) hg0.folderTree hg0.ord hsg.names y2
  obtain ⟨z0, c1, c2, c3⟩ := Again.C81_isolated_partial (e := e) a1 hp hps1 hps2 a2 a3 hsg.links hsg.answers hsg.unambiguous hsg.reads y2 b1 _
    (looked_fresh (k := k) hf) _ (ho _)
  have : z0 = z := by rw [c1] at y1; exact Option.some.inj y1
  subst this
  refine ⟨⟨_, hg, by rw [z3]; exact c2⟩, fun fetch concurrency sch' o' ho1 ho2 hend => ?_⟩
  have hlock : w1.lock = some (l.toKdl k.c) := by rw [z5]; exact if_pos hlf
  rw [hlock] at hend
  obtain ⟨s, root', l'', d1, d2, d3, d4, d5⟩ := resolve_again hp.project.1 hg hsg y2 fetch concurrency sch' hend
  rw [a1] at d2; cases d2
  rw [b1] at d3; cases d3
  obtain ⟨⟨l2, q1, q2⟩, c4⟩ := c3 fetch concurrency s d4 d5
  obtain ⟨y', zz, f1, f2, f3, f4, f5⟩ := c4 l'.packages _ (ho s.graph)
  have hdisk : disk (k.later fetch concurrency).c (loadActual w1.metaFile) w1.nm = ⟨z0.1, some l'.packages⟩ := by
    show disk k.c (loadActual w1.metaFile) w1.nm = _
    unfold disk
    rw [z2, z3, z4]
    simp [loadActual, b1, Except.toOption]
  obtain ⟨g1, _⟩ := execute_isolated (J := J) (k := k.later fetch concurrency) (o := { o' with apply := true }) rfl ho1 e order sch' m w1 (g := s.graph)
    (by rw [hlock]; simp only [ho2]; exact d1)
  obtain ⟨w2, i1, ⟨i2, i3, i4, i5, i6, i7⟩, i8⟩ := g1 y' zz l2 (by rw [hdisk]; exact f1) (by rw [hdisk]; exact f4) q1 (.inr f2)
  refine ⟨w2, ?_, i6, ?_, by rw [i2, z2], ?_, by rw [i8, f2], by rw [i3, z3, f5]⟩
  · rw [apply_cmd (m := m) (by rw [z6]; exact hread)]; exact i1
  · rw [i5, hlock]
    have : Lockfile.toKdl (k.later fetch concurrency).c l2 = Lockfile.toKdl k.c l := q2
    rw [this]; split <;> rfl
  · rw [i4, z4]; exact q2

/-- C34, for commands (hoisted): when pruning begins in a node_modules that cannot be relied on – the meta file is missing or cannot be
read, or the isolated linker was used –, then there is no meta file any more when it ends; so that what happens afterwards, the next
command starts afresh. -/
theorem C34_wiped (g : Graph Str P S) (w : World Nm (Option KDoc) J) (hs : w.nm.tree [] = none → ∀ p, w.nm.tree p = none)
    (h : (disk k.c w.metaFile w.nm).metaFile = none ∨ w.nm.tree [Hoisted.storeName] ≠ none) :
    (stepPrune (hoisted k sch) g w).1.metaFile = .absent ∧ FreshProject (stepPrune (hoisted k sch) g w).1 := by
  have key : (Hoisted.prune k.v g (disk k.c w.metaFile w.nm)).metaFile = none ∧
      ((∀ p, (Hoisted.prune k.v g (disk k.c w.metaFile w.nm)).tree p = none) ∨ (Hoisted.prune k.v g (disk k.c w.metaFile w.nm)).tree [] = some .dir) := by
    unfold Hoisted.prune
    by_cases hr : (disk k.c w.metaFile w.nm).tree [] = none
    · rw [if_pos hr]
      exact ⟨rfl, .inl (hs hr)⟩
    · rw [if_neg hr]
      cases hd : (disk k.c w.metaFile w.nm).metaFile with
      | none => exact ⟨rfl, .inr rfl⟩
      | some a =>
        rcases h with h | h
        · rw [h] at hd; cases hd
        · simp only
          rw [if_pos (show (disk k.c w.metaFile w.nm).tree [Hoisted.storeName] ≠ none from h)]
          exact ⟨rfl, .inr rfl⟩
  have hm : (stepPrune (hoisted k sch) g w).1.metaFile = .absent := by
    simp [stepPrune, hoisted, metaAfter, key.1]
  exact ⟨hm, by rw [hm]; exact nofun, key.2⟩

/-- C34, for commands (isolated): the same, when the meta file is missing or cannot be read, or the store is missing. -/
theorem C34_wiped_isolated (g : Graph Str P S) (w : World Nm (Option KDoc) J) (hs : w.nm.tree [] = none → ∀ p, w.nm.tree p = none)
    (h : (disk k.c w.metaFile w.nm).metaFile = none ∨ w.nm.tree [Hoisted.storeName] = none) :
    (stepPrune (isolated k e order sch) g w).1.metaFile = .absent ∧ FreshProject (stepPrune (isolated k e order sch) g w).1 := by
  have key : ((∀ p, Iso.prune e g (disk k.c w.metaFile w.nm) p = none) ∨ Iso.prune e g (disk k.c w.metaFile w.nm) [] = some .dir) := by
    unfold Iso.prune
    by_cases hr : (disk k.c w.metaFile w.nm).tree [] = none
    · rw [if_pos hr]
      exact .inl (hs hr)
    · rw [if_neg hr, if_pos]
      · exact .inr rfl
      · rcases h with h | h
        · simp [h]
        · simp [disk, h]
  have hm : (stepPrune (isolated k e order sch) g w).1.metaFile = .absent := by
    simp only [stepPrune, isolated, isoMetaAfter]
    rw [if_pos]
    rcases h with h | h
    · exact .inr (.inl (by rw [h]; rfl))
    · exact .inr (.inr h)
  exact ⟨hm, by rw [hm]; exact nofun, key⟩

/-! ### C82 -/

/-- the project once node_modules was removed -/
def cleared (w : World Nm (Option KDoc) J) : World Nm (Option KDoc) J :=
  { w with metaFile := .absent, nm := { tree := fun _ => none, doc := [] } }

theorem reapply_eq (o : Opts) (st : Steps Nm (Option KDoc) J (Manifest Str) (Graph Str P S)) (w : World Nm (Option KDoc) J) :
    reapplyCmd clear readCorgi o st w = applyCmd readCorgi o st (cleared w) := by
  unfold reapplyCmd
  rw [andThen_true rfl]
  rfl

/-- C82: what was in node_modules, and what the meta file there said, makes no difference to `oro reapply`, for any linker, any steps
and whether it succeeds or fails. -/
theorem C82_independent (o : Opts) (st : Steps Nm (Option KDoc) J (Manifest Str) (Graph Str P S)) (w w' : World Nm (Option KDoc) J)
    (h : SameButModules w w') : reapplyCmd clear readCorgi o st w = reapplyCmd clear readCorgi o st w' := by
  obtain ⟨h1, h2, h3⟩ := h
  unfold reapplyCmd
  congr 2
  simp only [clear, h1, h2, h3]

/-- C82: when `oro reapply` succeeds (hoisted linker; scripts that change nothing), node_modules has exactly the resolved packages,
whatever was there before, the commands of each package are linked, the lockfile and the meta file are those of the tree, and
package.json is as it was. -/
theorem C82_hoisted (hread : readCorgi w.pkg = some m) (hlo : o.lockfileOnly = false) (hq : Quiet o k)
    (hp : Works.Plain k.env ((lockOf k.c w.lock).map (·.tree k.toPackage)) m k.pk) {g : Graph Str P S}
    (hr : resolve k sch m o.locked w.lock = some g) :
    ∃ w' l, reapplyCmd clear readCorgi o (hoisted k sch) w = (w', true) ∧ Hoisted.Installed k.pk g w'.nm.tree ∧
      (∀ (i : Nat) (nd : Node Str P S) (σ : List Str) (n b : Str) (x : Loc), g.nodes[i]? = some nd → LocatedAt g i (σ ++ [n]) →
        (b, x) ∈ k.pk.bins nd.pkg → nmWord ∉ x → k.pk.content nd.pkg x ≠ none → Hoisted.CommandLinked k.pk g σ b w'.nm.tree) ∧
      toLockfile k.v g = some l ∧ w'.metaFile = .good ∧ w'.nm.doc = l.toKdl k.c ∧
      w'.lock = (if o.lockfile then some (l.toKdl k.c) else w.lock) ∧ w'.pkg = w.pkg := by
  obtain ⟨root, s0, a1, a2, a3, rfl, _⟩ := rrun_done hr
  have hi := Works.installable a1 a2 hp
  have hred : reapplyCmd clear readCorgi o (hoisted k sch) w =
      execute { o with apply := true } (hoisted k sch) m { w with metaFile := .absent, nm := { tree := fun _ => none, doc := [] } } := by
    rw [reapply_eq, apply_cmd (w := cleared w) (m := m) hread]
    rfl
  have hf : Hoisted.Fresh (disk k.c (loadActual .absent) { tree := fun _ => none, doc := [] }) := ⟨rfl, .inl fun _ => rfl⟩
  obtain ⟨r, c1, c2, c3⟩ := Hoisted.C33_fresh k.pk k.v s0.graph hi _ hf
  obtain ⟨l, _, hl, _⟩ := id c3
  obtain ⟨x1, _⟩ := execute_hoisted (J := J) (o := { o with apply := true }) rfl hlo sch m
    { w with metaFile := .absent, nm := { tree := fun _ => none, doc := [] } } (g := s0.graph) hr
  obtain ⟨w', z1, ⟨z2, z3, z4, z5, z6, _⟩, _⟩ := x1 r l c1 hl (.inl hq)
  refine ⟨w', l, by rw [hred]; exact z1, by rw [z3]; exact c2, ?_, hl, z2, z4, z5, z6⟩
  intro i nd σ n b x hn hloc hb hx hc
  rw [z3]
  unfold Hoisted.applyTree at c1
  obtain ⟨q, q1, rfl⟩ := Option.map_eq_some_iff.1 c1
  exact Hoisted.C35_fresh_partial k.pk k.v s0.graph hi _ hf q q1 q.2.pending (List.Perm.refl _) i nd σ n b x hn hloc hb hx hc

/-- C82 with the isolated linker. -/
theorem C82_isolated (hread : readCorgi w.pkg = some m) (hlo : o.lockfileOnly = false) (hq : Quiet o k)
    (hp : Works.Plain k.env ((lockOf k.c w.lock).map (·.tree k.toPackage)) m k.pk) {g : Graph Str P S}
    (hps : Works.PlainStore k.env ((lockOf k.c w.lock).map (·.tree k.toPackage)) k.pk e g) (hpc : Iso.PlainCommands k.pk g)
    (ho : Iso.Order g (order g)) (hr : resolve k sch m o.locked w.lock = some g) :
    ∃ w' l, reapplyCmd clear readCorgi o (isolated k e order sch) w = (w', true) ∧ Iso.Installed k.pk e g w'.nm.tree ∧
      toLockfile k.v g = some l ∧ w'.metaFile = .good ∧ w'.nm.doc = l.toKdl k.c ∧
      w'.lock = (if o.lockfile then some (l.toKdl k.c) else w.lock) ∧ w'.pkg = w.pkg := by
  obtain ⟨root, s0, a1, a2, a3, rfl, _⟩ := rrun_done hr
  have hi := Works.installable_store a1 a2 hp hps
  have hred : reapplyCmd clear readCorgi o (isolated k e order sch) w =
      execute { o with apply := true } (isolated k e order sch) m { w with metaFile := .absent, nm := { tree := fun _ => none, doc := [] } } := by
    rw [reapply_eq, apply_cmd (w := cleared w) (m := m) hread]
    rfl
  have hf : Iso.Fresh (disk k.c (loadActual .absent) { tree := fun _ => none, doc := [] }) := ⟨rfl, .inl fun _ => rfl⟩
  obtain ⟨z, c1, c2, _⟩ := Iso.C35_isolated_partial k.pk e s0.graph hi hpc _ hf _ ho
  obtain ⟨y, y1, _⟩ := Iso.C46_fresh k.pk e s0.graph hi _ hf _ ho
  have hnode : ∃ nd, s0.graph.nodes[0]? = some nd := by
    have hg0 := (a2.sinv ⟨[], k.rootPkg m, m, a1⟩).pinv.ginv
    obtain ⟨nd, h, _⟩ := hg0.root
    exact ⟨nd, h⟩
  obtain ⟨nd, hnd⟩ := hnode
  obtain ⟨l, hl⟩ : ∃ l, toLockfile k.v s0.graph = some l := by
    unfold toLockfile lockNode
    rw [hnd]
    exact ⟨_, rfl⟩
  obtain ⟨x1, _⟩ := execute_isolated (J := J) (o := { o with apply := true }) rfl hlo e order sch m
    { w with metaFile := .absent, nm := { tree := fun _ => none, doc := [] } } (g := s0.graph) hr
  obtain ⟨w', z1, ⟨z2, z3, z4, z5, z6, _⟩, _⟩ := x1 y z l y1 c1 hl (.inl hq)
  exact ⟨w', l, by rw [hred]; exact z1, by rw [z3]; exact c2, hl, z2, z4, z5, z6⟩

/-- C80 for commands, hoisted linker: after a successful `oro reapply` that resolved a tree in which requirements load what they are linked
to (C01), every requirement, from the project on, finds a package that is what it asks for. -/
theorem C80_command_hoisted (v : Iso.Env) (hread : readCorgi w.pkg = some m) (hlo : o.lockfileOnly = false) (hq : Quiet o k)
    (hp : Works.Plain k.env ((lockOf k.c w.lock).map (·.tree k.toPackage)) m k.pk)
    (hs : ∀ g, resolve k sch m o.locked w.lock = some g → LinksLoad g) (h1 : reapplyCmd clear readCorgi o (hoisted k sch) w = (w1, true)) :
    Works.ProjectWorks k.env ((lockOf k.c w.lock).map (·.tree k.toPackage)) k.pk v w1.nm.tree m := by
  have h2 := h1
  rw [reapply_eq] at h2
  obtain ⟨g, hg⟩ := resolved (w := cleared w) hread (fun _ _ _ => rfl) h2
  have hg : resolve k sch m o.locked w.lock = some g := hg
  obtain ⟨w', l, c1, c2, _⟩ := C82_hoisted hread hlo hq hp hg
  rw [h1] at c1
  cases c1
  obtain ⟨root, s0, a1, a2, a3, rfl, _⟩ := rrun_done hg
  exact Works.C80_installed a1 a2 a3 (hs _ hg) hp c2

/-- C80 for commands, isolated linker: after a successful `oro reapply`, in whatever order things happened, the project works. -/
theorem C80_command_isolated (hread : readCorgi w.pkg = some m) (hlo : o.lockfileOnly = false) (hq : Quiet o k)
    (hp : Works.Plain k.env ((lockOf k.c w.lock).map (·.tree k.toPackage)) m k.pk)
    (hps : ∀ g, resolve k sch m o.locked w.lock = some g →
      Works.PlainStore k.env ((lockOf k.c w.lock).map (·.tree k.toPackage)) k.pk e g ∧ Iso.PlainCommands k.pk g)
    (ho : ∀ g, Iso.Order g (order g))
    (h1 : reapplyCmd clear readCorgi o (isolated k e order sch) w = (w1, true)) :
    Works.ProjectWorks k.env ((lockOf k.c w.lock).map (·.tree k.toPackage)) k.pk e w1.nm.tree m := by
  have h2 := h1
  rw [reapply_eq] at h2
  obtain ⟨g, hg⟩ := resolved (w := cleared w) hread (fun _ _ _ => rfl) h2
  have hg : resolve k sch m o.locked w.lock = some g := hg
  obtain ⟨hp1, hp2⟩ := hps g hg
  obtain ⟨w', l, c1, c2, _⟩ := C82_isolated hread hlo hq hp hp1 hp2 (ho g) hg
  rw [h1] at c1
  cases c1
  obtain ⟨root, s0, a1, a2, a3, rfl, _⟩ := rrun_done hg
  exact Works.C80_store a1 a2 a3 hp hp1 c2

/-- C82 is false of the code when the command fails early: node_modules is removed before package.json is read, so that with a
package.json that cannot be read, or a project that cannot be resolved, it fails having removed node_modules, where `oro apply`
would have failed with node_modules untouched. -/
theorem C82_fails (o : Opts) (st : Steps Nm (Option KDoc) J (Manifest Str) (Graph Str P S)) (w : World Nm (Option KDoc) J)
    (h : readCorgi w.pkg = none ∨ ∃ m, readCorgi w.pkg = some m ∧ ∀ mf n, st.resolve m o.locked w.lock mf n = none) :
    (∃ w', reapplyCmd clear readCorgi o st w = (w', false) ∧ Gone w' ∧ SameButModules w' w) ∧
    ∃ w', applyCmd readCorgi o st w = (w', false) ∧ w'.nm = w.nm ∧ SameButModules w' w := by
  rw [reapply_eq]
  rcases h with h | ⟨m, h, hres⟩
  · refine ⟨⟨cleared w, ?_, ⟨rfl, fun _ => rfl⟩, rfl, rfl, rfl⟩, ⟨w, ?_, rfl, rfl, rfl, rfl⟩⟩
    · unfold applyCmd
      rw [show readCorgi (cleared w).pkg = none from h]
    · unfold applyCmd
      rw [h]
  · refine ⟨⟨cleared w, ?_, ⟨rfl, fun _ => rfl⟩, rfl, rfl, rfl⟩, ⟨looked w, ?_, rfl, rfl, rfl, rfl⟩⟩
    · rw [apply_cmd (w := cleared w) (m := m) h]
      unfold execute
      rw [if_pos rfl]
      dsimp only
      rw [show (cleared w).lock = w.lock from rfl, hres]
      rfl
    · rw [apply_cmd (m := m) h]
      unfold execute
      rw [if_pos rfl]
      dsimp only
      rw [hres]

end Whole
end Oro
