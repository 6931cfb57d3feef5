import Verif.Props.Life
/- C86 for projects without version conflicts: every command works out, whatever came before. -/

set_option linter.unusedSectionVars false

namespace Oro
namespace Life
open Cli Whole

variable {P S V I J F : Type} [DecidableEq S] [DecidableEq V] [DecidableEq I]
variable {ed : Editing J (Manifest Str) F} {k : Setting P S V I} {c : Call P S} {w : World Nm (Option KDoc) J} {x y : Inside P S}

/-- an entry records where its package comes from -/
theorem lockNode_records {v : LockView P S V I} {g : Graph Str P S} {i : Nat} {b : Bool} {n : LNode V I} (h : lockNode v g i b = some n) :
    ∃ nd, g.nodes[i]? = some nd ∧ Records n (v.resolved nd.pkg) ∧ n.name = v.pkgName nd.pkg := by
  unfold lockNode at h
  cases hx : g.nodes[i]? with
  | none => rw [hx] at h; cases h
  | some nd =>
    rw [hx] at h
    cases h
    refine ⟨nd, rfl, ?_, rfl⟩
    cases hr : v.resolved nd.pkg <;> simp [Records, hr]

theorem records_same {a b : LNode V I} {r : Resolved V I} (h1 : a.resolved = b.resolved) (h2 : a.version = b.version)
    (h3 : a.integrity = b.integrity) (h : Records a r) : Records b r := by
  cases r <;> simp only [Records, ← h1, ← h2, ← h3] <;> exact h

/-- between flat trees pruning notices all changes -/
theorem flat_noticed (hk : Immutable k) {g0 g : Graph Str P S} (h0 : Hoisted.Installable k.pk g0) (h1 : Hoisted.Installable k.pk g)
    (f0 : Flat g0) (f1 : Flat g) {recorded : IMap Str (LNode V I)} (hr : Hoisted.Recorded k.v g0 (some recorded)) :
    Hoisted.Noticed k.pk k.v g0 g recorded := by
  intro n hn hcase ρ cont
  have none_at : ∀ g' : Graph Str P S, Flat g' → ρ ≠ [] → ∀ i, ¬ LocatedAt g' i (n :: ρ) := by
    intro g' hf hρ i hl
    rcases hf i _ hl with h | ⟨m, h, _⟩
    · cases h
    · rw [List.cons.injEq] at h; exact hρ h.2
  by_cases hρ : ρ = []
  · subst hρ
    rcases hcase with hat | ⟨nd, i, ideal, act, t1, t2, t3, t4, t5⟩
    · have no : ∀ g' : Graph Str P S, Flat g' → ∀ i, ¬ LocatedAt g' i [n] := by
        intro g' hf i hl
        rcases hf i _ hl with h | ⟨m, h, hm⟩
        · cases h
        · cases h; exact hm hat
      constructor
      · rintro ⟨i, _, hl, _⟩; exact absurd hl (no g0 f0 i)
      · rintro ⟨i, _, hl, _⟩; exact absurd hl (no g f1 i)
    · obtain ⟨l, recorded', r1, r2, r3, r4⟩ := hr
      cases r2
      obtain ⟨nd1, c1, c2, c3⟩ := h1.tree.lists 0 nd n i t1 t2
      have hli : LocatedAt g i [n] := by
        have := LocatedAt.inside c1 c2 (.root t1)
        rw [c3] at this
        exact this
      obtain ⟨nd1', e1, e2, e3⟩ := lockNode_records t3
      rw [c1] at e1; cases e1
      rcases r4 n with ⟨q1, _⟩ | ⟨a, b, q1, q2, q3⟩
      · rw [t4] at q1; cases q1
      rw [t4] at q1; cases q1
      obtain ⟨j, j1, j2, j3, j4⟩ := toLockfile_entry r1 (IMap.mem_of_get? q2)
      obtain ⟨nd0, d1, d2, d3⟩ := lockNode_records j3
      have hpath := (lockNode_path j3).1
      have hlj : LocatedAt g0 j (g0.nodePath j) := (locatedAt_iff h0.tree h0.order).2 ⟨⟨_, d1⟩, rfl⟩
      have hpn : g0.nodePath j = [n] := by
        rcases f0 j _ hlj with h | ⟨m, h, _⟩
        · rw [h] at hlj; exact absurd (located_root hlj) j1
        · have : n = joinPath [m] := by rw [← h, ← hpath]; exact j4
          rw [h, this]; rfl
      rw [hpn] at hlj
      simp only [LNode.eqv, Bool.and_eq_true, decide_eq_true_eq] at t5
      obtain ⟨⟨⟨⟨⟨⟨⟨⟨⟨s1, s2⟩, s3⟩, s4⟩, s5⟩, s6⟩, _⟩, _⟩, _⟩, _⟩ := t5
      have hcont : k.pk.content nd0.pkg = k.pk.content nd1.pkg := by
        refine hk act _ _ ?_ ?_ ?_
        · exact records_same q3.entry.resolved.symm q3.entry.version.symm q3.entry.integrity.symm d2
        · exact records_same s4.symm s5.symm s6.symm e2
        · rw [← d3, ← e3, ← s1, q3.name]
      constructor
      · rintro ⟨i', nd', z1, z2, z3⟩
        have := locatedAt_inj h0.tree z1 hlj
        subst this
        rw [d1] at z2; cases z2
        exact ⟨i, nd1, hli, c1, by rw [← hcont]; exact z3⟩
      · rintro ⟨i', nd', z1, z2, z3⟩
        have := locatedAt_inj h1.tree z1 hli
        subst this
        rw [c1] at z2; cases z2
        exact ⟨j, nd0, hlj, d1, by rw [hcont]; exact z3⟩
  · constructor
    · rintro ⟨i, _, hl, _⟩; exact absurd hl (none_at g0 f0 hρ i)
    · rintro ⟨i, _, hl, _⟩; exact absurd hl (none_at g f1 hρ i)

/-- what can be said of node_modules in such a project -/
def FlatSays : Inside P S → Prop
  | .unknown => False
  | .fresh => True
  | .tree g => Flat g

/-- the tree such a command resolves to -/
theorem agreed_flat {ch : Str → P × Manifest Str} (ha : AgreedCall ed k c w ch) (hi : installs c = true) (hlo : c.o.lockfileOnly = false)
    {m : Manifest Str} {g : Graph Str P S} (hr : ResolvesTo ed k c w m g) :
    Flat g ∧ LinksLoad g ∧ Hoisted.Installable k.pk g ∧
    (∀ (i : Nat) (nd : Node Str P S), i ≠ 0 → g.nodes[i]? = some nd → k.v.pkgName nd.pkg = nd.name) ∧
    (∀ π p, π ≠ [] → (Installed g π p ↔ ∃ n, Reached m ch n ∧ π = [n] ∧ p = (ch n).1)) := by
  obtain ⟨p1, p2, _, p4⟩ := ha.agreed m hi hlo hr.1
  obtain ⟨root, s0, a1, a2, a3, rfl, _⟩ := rrun_done hr.2
  obtain ⟨_, _, _, q1, q2, q3⟩ := C76_flat a1 p1.project.1 p2 a2
  have hg0 := (a2.sinv ⟨[], k.rootPkg m, m, a1⟩).pinv.ginv
  have hin := Works.installable a1 a2 p1
  refine ⟨fun i π hl => ?_, q3, hin, fun i nd h0 hn => ?_, fun π p hπ => ⟨q1 π p hπ, ?_⟩⟩
  · by_cases hπ : π = []
    · exact .inl hπ
    · obtain ⟨nd, hn⟩ := located_node hl
      obtain ⟨n, n1, n2, _⟩ := q1 π nd.pkg hπ ⟨i, nd, hl, hn, rfl⟩
      exact .inr ⟨n, n2, (p4 n n1).2⟩
  · have hl : LocatedAt s0.graph i (s0.graph.nodePath i) := (locatedAt_iff hg0.folderTree hg0.ord).2 ⟨⟨_, hn⟩, rfl⟩
    obtain ⟨n, n1, n2, n3⟩ := q1 _ nd.pkg (located_ne hl h0) ⟨i, nd, hl, hn, rfl⟩
    rw [n3, (p4 n n1).1]
    rw [n2] at hl
    generalize hπ : [n] = π at hl
    cases hl with
    | root _ => cases hπ
    | inside h1 h2 h3 =>
      rename_i σ
      rw [hn] at h1; cases h1
      have := congrArg List.getLast? hπ
      simpa using this
  · rintro ⟨n, n1, rfl, rfl⟩
    exact q2 a3 n n1

theorem agreed_fits (hk : Immutable k) {ch : Str → P × Manifest Str} (ha : AgreedCall ed k c w ch) (hs : Says k w x) (hx : FlatSays x) :
    Fits ed k c w x := by
  refine ⟨ha.quiet, fun m g hi hlo hr => ?_⟩
  obtain ⟨f1, f2, f3, f4, _⟩ := agreed_flat ha hi hlo hr
  refine ⟨(ha.agreed m hi hlo hr.1).1, f4, fun _ => ?_⟩
  cases x with
  | unknown => exact hx.elim
  | fresh => trivial
  | tree g0 => exact fun recorded hrec => flat_noticed hk hs.1 f3 hx f1 hrec

theorem agreed_then {ch : Str → P × Manifest Str} (ha : AgreedCall ed k c w ch) (hx : FlatSays x) (ht : Then ed k c w x y) : FlatSays y := by
  cases ht with
  | installed m g a1 a2 a3 => exact (agreed_flat ha a1 a2 a3).1
  | removed _ _ => trivial
  | left _ _ => exact hx

theorem agreed_life (hk : Immutable k) (h : AgreedLife ed k w) : ∃ x, Lived ed k w x ∧ FlatSays x := by
  induction h with
  | new w h => exact ⟨_, .new w h, trivial⟩
  | edited w pkg lock _ ih => exact ⟨_, .edited w _ pkg lock ih.choose_spec.1, ih.choose_spec.2⟩
  | command w c ch _ ha ih =>
    obtain ⟨x, h1, h2⟩ := ih
    obtain ⟨y, hy⟩ := C86_goes_on (ed := ed) (k := k) w x c
    exact ⟨y, .command w x y c h1 (agreed_fits hk ha (C86_life_partial h1) h2) hy, agreed_then ha h2 hy⟩

theorem root_reads {env : Env Str P S} {m : Manifest Str} (p : P) (h : ∀ d ∈ m.deps ++ m.optDeps ++ m.devDeps, env.parse d.1 d.2 ≠ none) :
    ∃ root, Node.new env.parse [] p m true = some root := by
  have gen : ∀ (l : List ((Str × Str) × DepType)) (acc : IMap Str (S × DepType)), (∀ d ∈ l, env.parse d.1.1 d.1.2 ≠ none) →
      ∃ r, reqFold env.parse (some acc) l = some r := by
    intro l
    induction l with
    | nil => intro acc _; exact ⟨acc, rfl⟩
    | cons a l ih =>
      intro acc hl
      cases hp : env.parse a.1.1 a.1.2 with
      | none => exact absurd hp (hl a (.head _))
      | some s =>
        obtain ⟨r, hr⟩ := ih (acc.insert a.1.1 (s, a.2)) (fun d hd => hl d (List.mem_cons_of_mem _ hd))
        exact ⟨r, by simpa [reqFold, hp] using hr⟩
  obtain ⟨r, hr⟩ := gen (m.deps.map (fun d => (d, DepType.prod)) ++ m.optDeps.map (fun d => (d, DepType.opt))
    ++ m.devDeps.map (fun d => (d, DepType.dev))) [] (by
      intro d hd
      simp only [List.mem_append, List.mem_map] at hd
      refine h d.1 ?_
      simp only [List.mem_append]
      rcases hd with (⟨e, he, rfl⟩ | ⟨e, he, rfl⟩) | ⟨e, he, rfl⟩
      · exact .inl (.inl he)
      · exact .inl (.inr he)
      · exact .inr he)
  have hm : mkReqs env.parse m true = some r := hr
  exact ⟨{ name := [], pkg := p, reqs := r }, by unfold Node.new; rw [hm]; rfl⟩

/-- **C86** for projects without version conflicts and scoped packages, when what is published does not change. Whatever commands were
run before – installs, additions, removals, commands that failed –, however package.json and the lockfile were edited, a command that is
to install succeeds, in whatever order things happen; the project works then, node_modules has exactly the packages the project needs,
each the one that goes by its name; package.json is as the command wants it; and unless it was told not to, it has written a lockfile
that describes this. -/
theorem C86_agreed (v : Iso.Env) (hk : Immutable k) (hl : AgreedLife ed k w) {ch : Str → P × Manifest Str} (ha : AgreedCall ed k c w ch)
    (hi : installs c = true) (hlo : c.o.lockfileOnly = false) (hlk : locked c = false) {m : Manifest Str}
    (hw : (wants ed c.cmd w.pkg).bind ed.corgi = some m) (he : Ends (k.later c.fetch c.concurrency) c.sch m w.lock) :
    ∃ w' g l, run ed k c w = (w', true) ∧
      Works.ProjectWorks (k.later c.fetch c.concurrency).env ((lockOf k.c w.lock).map (·.tree k.toPackage)) k.pk v w'.nm.tree m ∧
      Hoisted.Installed k.pk g w'.nm.tree ∧ (∀ π p, π ≠ [] → (Installed g π p ↔ ∃ n, Reached m ch n ∧ π = [n] ∧ p = (ch n).1)) ∧
      some w'.pkg = wants ed c.cmd w.pkg ∧ toLockfile k.v g = some l ∧
      w'.lock = (if c.o.lockfile then some (l.toKdl k.c) else w.lock) := by
  obtain ⟨p1, p2, p3, _⟩ := ha.agreed m hi hlo hw
  obtain ⟨root, hroot⟩ := root_reads (env := k.env) (k.rootPkg m) p3
  obtain ⟨r, e1, e2⟩ := he root hroot
  obtain ⟨s, rfl, hs⟩ := rrun_total (env := (k.later c.fetch c.concurrency).env) (root := root) (fun s ev r h hst =>
    (C76_flat (env := (k.later c.fetch c.concurrency).env) hroot p1.project.1 p2 h).1 ev r hst) c.sch _ r .init e1
  have hr : ResolvesTo ed k c w m s.graph := by
    refine ⟨hw, ?_⟩
    unfold Whole.resolve
    have z1 : Node.new (k.later c.fetch c.concurrency).env.parse [] ((k.later c.fetch c.concurrency).rootPkg m) m true = some root := hroot
    rw [z1, Option.bind_some]
    rw [e1]
    simp [e2 s rfl, finish, hlk]
  obtain ⟨x, l1, l2⟩ := agreed_life hk hl
  have hf := agreed_fits hk ha (C86_life_partial l1) l2
  obtain ⟨g1, g2, _, _, g5⟩ := agreed_flat ha hi hlo hr
  obtain ⟨w', l, h1, h2, h3, _, h5, h6⟩ := (C86_command_partial (C86_life_partial l1) hf).1 m _ hi hlo hr
  exact ⟨w', _, l, h1, Works.C80_installed hroot hs (e2 s rfl) g2 p1 h2.2.1, h2.2.1, g5, h6, h3, h5⟩

/-- C86 and C81, partially: at any moment of a project's life, after a command that installs what it resolves to and writes the lockfile,
`oro apply` – however the registry has changed, in whatever order things happen – succeeds, leaves package.json, the lockfile and the
meta file as they are, changes nothing in node_modules, commands apart, and has no scripts to run. -/
theorem C86_again_partial (hl : Lived ed k w x) (hf : Fits ed k c w x) {m : Manifest Str} {g : Graph Str P S} (hi : installs c = true)
    (hlo : c.o.lockfileOnly = false) (hlf : c.o.lockfile = true) (hr : ResolvesTo ed k c w m g)
    (hsg : Sound (k.later c.fetch c.concurrency) g) :
    ∃ w1, run ed k c w = (w1, true) ∧ ∀ (fetch : S → Option (P × Manifest Str)) (concurrency : Nat) (sch' : List (REvent S)) (o' : Opts),
      o'.lockfileOnly = false → o'.locked = false → Ends (k.later fetch concurrency) sch' m w1.lock →
      ∃ w2, run ed k ⟨.apply, o', fetch, concurrency, sch'⟩ w1 = (w2, true) ∧
        w2.pkg = w1.pkg ∧ w2.lock = w1.lock ∧ w2.metaFile = w1.metaFile ∧ w2.nm.doc = w1.nm.doc ∧ w2.nm.rebuild = [] ∧
        ∀ p, ¬ Hoisted.InBin p → w2.nm.tree p = w1.nm.tree p := by
  obtain ⟨w1, l, h1, ⟨hin, hinst, hmeta, l0, l', y0, y1, y3, y4⟩, y2, hdoc, hlock, hpkg⟩ :=
    (C86_command_partial (C86_life_partial hl) hf).1 m g hi hlo hr
  rw [y0] at y2
  cases y2
  refine ⟨w1, h1, fun fetch concurrency sch' o' ho1 ho2 hend => ?_⟩
  have hp := (hf.2 m g hi hlo hr).1
  rw [if_pos hlf] at hlock
  rw [hlock] at hend
  have hread : ed.corgi w1.pkg = some m := by
    have := hr.1
    rw [← hpkg] at this
    exact this
  rw [y1] at y3
  obtain ⟨root, s0, a1, a2, a3, rfl, _⟩ := rrun_done hr.2
  obtain ⟨s, root', l'', d1, d2, d3, d4, d5⟩ := resolve_again (k := k.later c.fetch c.concurrency) hp.project.1 hr.2 hsg y0 fetch concurrency
    sch' hend
  have d2' : Node.new k.env.parse [] (k.rootPkg m) m true = some root' := d2
  have a1' : Node.new k.env.parse [] (k.rootPkg m) m true = some root := a1
  rw [a1'] at d2'; cases d2'
  have y3' : Lockfile.fromKdl (k.later c.fetch c.concurrency).c (l.toKdl (k.later c.fetch c.concurrency).c) = .ok l' := y3
  rw [y3'] at d3; cases d3
  obtain ⟨ha, l2, q1, q2⟩ := Again.alike_again a1 hp.project.1 a2 a3 hsg.links hsg.answers hsg.unambiguous hsg.reads.names hsg.reads.specs
    hsg.reads.packages y0 y3 fetch concurrency d4 d5
  have e1' := C14_canonical k.c (toLockfile_wf q1) (toLockfile_wf y0) q2
  have hgs := (d4.sinv (env := { k.env with fetch := fetch, concurrency := concurrency }) ⟨[], k.rootPkg m, m, a1⟩).pinv.ginv
  have hdisk : disk k.c (loadActual w1.metaFile) w1.nm = ⟨w1.nm.tree, some l'.packages⟩ := by
    unfold disk
    rw [hmeta, hdoc]
    simp [loadActual, y3, Except.toOption]
  obtain ⟨_, r1, f1, f2, f3, f4, f5⟩ := Hoisted.C33_again k.pk k.v s.graph (ha.installable hin hgs.folderTree hgs.ord) ⟨w1.nm.tree, some l'.packages⟩
    (ha.installed hin.tree hin.order hgs.folderTree hgs.ord hinst) (Again.recorded_same y0 y4 q1 q2)
  obtain ⟨g1, _⟩ := execute_hoisted (J := J) (k := k.later fetch concurrency) (o := { o' with apply := true }) rfl ho1 sch' m w1 (g := s.graph)
    (by rw [hlock]; simp only [ho2]; exact d1)
  have hdisk' : disk (k.later fetch concurrency).c (loadActual w1.metaFile) w1.nm = ⟨w1.nm.tree, some l'.packages⟩ := hdisk
  obtain ⟨w2, i1, ⟨i2, i3, i4, i5, i6, i7⟩, i8⟩ := g1 r1 l2 (by rw [hdisk']; exact f1) q1 (.inr f3)
  refine ⟨w2, ?_, i6, ?_, by rw [i2, hmeta], ?_, by rw [i8, f3], fun p hpb => ?_⟩
  · show applyCmd ed.corgi o' (hoisted (k.later fetch concurrency) sch') w1 = (w2, true)
    rw [apply_cmd hread]; exact i1
  · rw [i5, hlock]
    have : Lockfile.toKdl (k.later fetch concurrency).c l2 = Lockfile.toKdl k.c l := e1'
    rw [this]; split <;> rfl
  · rw [i4, hdoc]; exact e1'
  · rw [i3]; exact f4 p hpb

end Life
end Oro
