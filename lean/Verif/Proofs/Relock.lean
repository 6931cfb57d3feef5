import Verif.Spec.Relock
import Verif.Proofs.ResolverMore
/- Resolving from a lockfile that settles everything: simulation of the lockfile's folders by the graph. -/

set_option linter.unusedSectionVars false

namespace Oro
variable {N P S : Type} [DecidableEq N] [DecidableEq S]
open Graph

section
variable {env : Env N P S} {m : Manifest N} {lock : LockTree N P}

theorem Holds.fn {π : List N} {p p' : P} {a b : Manifest N} (h : Holds lock π p a) (h' : Holds lock π p' b) : p = p' ∧ a = b := by
  obtain ⟨e, h1, h2, h3⟩ := h
  obtain ⟨e', g1, g2, g3⟩ := h'
  rw [h1] at g1; cases g1
  rw [h2] at g2; cases g2
  exact ⟨rfl, h3.symm.trans g3⟩

theorem prefix_cases {a b c : List N} (h1 : a <+: c) (h2 : b <+: c) :
    a = b ∨ (∃ x, x ≠ [] ∧ b = a ++ x) ∨ ∃ x, x ≠ [] ∧ a = b ++ x := by
  rcases List.prefix_or_prefix_of_prefix h1 h2 with ⟨x, hx⟩ | ⟨x, hx⟩
  · by_cases h : x = []
    · subst h; left; simpa using hx
    · exact .inr (.inl ⟨x, h, hx.symm⟩)
  · by_cases h : x = []
    · subst h; left; simpa using hx.symm
    · exact .inr (.inr ⟨x, h, hx.symm⟩)

/-- a holder strictly nearer than the nearest one is impossible -/
theorem Nearest.min {π π' : List N} {n : N} {p : P} (h : Nearest lock π n π' p) {w : List N} {p' : P} {m' : Manifest N}
    (hw : w <+: π) (hh : Holds lock (w ++ [n]) p' m') : w ++ [n] = π' ∨ ∃ x, x ≠ [] ∧ π' = w ++ x ++ [n] := by
  obtain ⟨up, down, rfl, rfl, hp, hmin⟩ := h
  rcases prefix_cases hw (List.prefix_append up down) with rfl | ⟨x, hx, rfl⟩ | ⟨x, hx, rfl⟩
  · exact .inl rfl
  · exact .inr ⟨x, hx, rfl⟩
  · exfalso
    obtain ⟨e, h1, h2, _⟩ := hh
    have := hmin x hx ((List.prefix_append_right_inj up).1 hw) e h1
    rw [h2] at this; cases this

theorem Nearest.holds {π π' : List N} {n : N} {p : P} (h : Nearest lock π n π' p) : ∃ up m', up <+: π ∧ π' = up ++ [n] ∧ Holds lock π' p m' := by
  obtain ⟨up, down, rfl, rfl, ⟨m', hp⟩, _⟩ := h
  exact ⟨up, m', List.prefix_append _ _, rfl, hp⟩

theorem Nearest.fn {π a b : List N} {n : N} {p q : P} (h : Nearest lock π n a p) (h' : Nearest lock π n b q) : a = b ∧ p = q := by
  obtain ⟨u, m1, hu, rfl, hh⟩ := h.holds
  obtain ⟨w, m2, hw, rfl, hh'⟩ := h'.holds
  have : u ++ [n] = w ++ [n] := by
    rcases h'.min hu hh with e | ⟨x, hx, e⟩
    · exact e
    · rcases h.min hw hh' with e' | ⟨y, hy, e'⟩
      · exact e'.symm
      · have h1 := congrArg List.length e
        have h2 := congrArg List.length e'
        simp only [List.length_append] at h1 h2
        have := List.length_pos_iff.2 hx
        have := List.length_pos_iff.2 hy
        omega
  refine ⟨this, ?_⟩
  rw [this] at hh
  exact (hh.fn hh').1

/-- folders in between see the same package -/
theorem Nearest.between {π σ : List N} {n : N} {up : List N} {p : P} (h : Nearest lock π n (up ++ [n]) p) (h1 : up <+: σ) (h2 : σ <+: π) :
    Nearest lock σ n (up ++ [n]) p := by
  obtain ⟨u, down, rfl, he, hp, hmin⟩ := h
  have : up = u := by simpa using he
  subst this
  obtain ⟨d, rfl⟩ := h1
  refine ⟨up, d, rfl, rfl, hp, ?_⟩
  intro near hne hpre
  exact hmin near hne (hpre.trans ((List.prefix_append_right_inj up).1 h2))

/-! ### locations in the graph -/

variable {g g' : Graph N P S}

theorem located_of_kept (hk : Kept g g') {i : Nat} {π : List N} (h : LocatedAt g i π) : LocatedAt g' i π := by
  induction h with
  | root h0 =>
    obtain ⟨nd, a, _⟩ := hk.1 0 _ h0
    exact .root a
  | inside hn hp _ ih =>
    obtain ⟨nd, a, b, _, _, c, _⟩ := hk.1 _ _ hn
    rw [← b]
    exact .inside a (c.trans hp) ih

theorem located_exists (h : GInv env g) {i : Nat} (hi : i < g.nodes.length) : ∃ π, LocatedAt g i π :=
  ⟨g.nodePath i, (locatedAt_iff h.folderTree h.ord).mpr ⟨⟨_, List.getElem?_eq_getElem hi⟩, rfl⟩⟩

theorem located_fn (h : GInv env g) {i : Nat} {π σ : List N} (h1 : LocatedAt g i π) (h2 : LocatedAt g i σ) : π = σ :=
  ((locatedAt_iff h.folderTree h.ord).1 h1).2.symm.trans ((locatedAt_iff h.folderTree h.ord).1 h2).2

theorem located_back (h : GInv env g) (h' : GInv env g') (hk : Kept g g') {i : Nat} (hi : i < g.nodes.length) {π : List N}
    (hl : LocatedAt g' i π) : LocatedAt g i π := by
  obtain ⟨σ, hσ⟩ := located_exists h hi
  rw [located_fn h' hl (located_of_kept hk hσ)]
  exact hσ

theorem located_prefix {i : Nat} {π : List N} (h : LocatedAt g i π) {up : List N} (hu : up <+: π) :
    ∃ u, LocatedAt g u up ∧ Within g i u := by
  induction h with
  | root h0 =>
    have := List.prefix_nil.mp hu
    subst this
    exact ⟨0, .root h0, .refl h0⟩
  | @inside i p π nd hn hp hl ih =>
    rcases List.prefix_concat_iff.mp hu with rfl | hu
    · exact ⟨i, .inside hn hp hl, .refl hn⟩
    · obtain ⟨u, h1, h2⟩ := ih hu
      exact ⟨u, h1, .up hn hp h2⟩

theorem prefix_of_within (h : GInv env g) {i u : Nat} (hw : Within g i u) : ∀ {π up : List N}, LocatedAt g i π → LocatedAt g u up → up <+: π := by
  induction hw with
  | refl hn => intro π up h1 h2; rw [located_fn h h2 h1]; exact List.prefix_refl _
  | @up i p a nd hn hp hw ih =>
    intro π up h1 h2
    cases h1 with
    | root h0 =>
      obtain ⟨r, hr, hrp⟩ := h.root
      rw [hn] at hr; cases hr; rw [hp] at hrp; cases hrp
    | inside hn' hp' hl =>
      rw [hn] at hn'; cases hn'
      rw [hp] at hp'; cases hp'
      exact (ih hl h2).trans (List.prefix_append _ _)

theorem located_child (h : GInv env g) {u x : Nat} {n : N} {up : List N} (hc : g.child? u n = some x) (hu : LocatedAt g u up) :
    LocatedAt g x (up ++ [n]) ∧ x ≠ 0 := by
  obtain ⟨nd, h1, h2, h3⟩ := h.child_lt hc
  refine ⟨?_, ?_⟩
  · rw [← h3]; exact .inside h1 h2 hu
  · rintro rfl
    obtain ⟨r, hr, hrp⟩ := h.root
    rw [h1] at hr; cases hr; rw [h2] at hrp; cases hrp

/-! ### the simulation -/

/-- The graph is a part of what the lockfile describes, and its links lead to the packages nearest in the lockfile. -/
structure Follows (env : Env N P S) (m : Manifest N) (lock : LockTree N P) (g : Graph N P S) : Prop where
  node : ∀ (i : Nat) (nd : Node N P S) (π : List N), i ≠ 0 → g.nodes[i]? = some nd → LocatedAt g i π →
    Needed env m lock π ∧ ∃ m', Holds lock π nd.pkg m' ∧ mkReqs env.parse m' false = some nd.reqs
  root : ∀ nd, g.nodes[0]? = some nd → mkReqs env.parse m true = some nd.reqs
  link : ∀ e ∈ g.edges, ∀ (dn : Node N P S) (π : List N), g.nodes[e.dst]? = some dn → LocatedAt g e.src π →
    ∃ π' p, Nearest lock π dn.name π' p ∧ LocatedAt g e.dst π'

theorem located_root {i : Nat} (h : LocatedAt g i []) : i = 0 := by
  generalize hπ : ([] : List N) = π at h
  cases h with
  | root => rfl
  | inside _ _ _ => simp at hπ

theorem located_ne {i : Nat} {π : List N} (hl : LocatedAt g i π) (h0 : i ≠ 0) : π ≠ [] := by
  rintro rfl
  exact h0 (located_root hl)

theorem Follows.needed (h : Follows env m lock g) (hg : GInv env g) {i : Nat} {π : List N} (hl : LocatedAt g i π) : Needed env m lock π := by
  by_cases h0 : i = 0
  · subst h0
    obtain ⟨nd, hn, _⟩ := hg.root
    rw [located_fn hg hl (.root hn)]
    exact .project
  · obtain ⟨nd, hn⟩ : ∃ nd, g.nodes[i]? = some nd := by cases hl <;> exact ⟨_, by assumption⟩
    exact (h.node i nd π h0 hn hl).1

theorem Follows.wants (h : Follows env m lock g) (hm : m.Proper) (hs : Settled env m lock) (hg : GInv env g) {i : Nat} {nd : Node N P S} {π : List N}
    (hn : g.nodes[i]? = some nd) (hl : LocatedAt g i π) (n : N) (spec : S) (ty : DepType) :
    nd.reqs.get? n = some (spec, ty) ↔ Wants env m lock π n spec ty := by
  by_cases h0 : i = 0
  · subst h0
    have := located_fn hg hl (.root hn)
    subst this
    rw [mkReqs_spec hm (h.root nd hn)]
    constructor
    · rintro ⟨raw, h1, h2⟩
      exact ⟨raw, h2, .inl ⟨rfl, h1⟩⟩
    · rintro ⟨raw, h2, ⟨_, h1⟩ | ⟨h1, _⟩⟩
      · exact ⟨raw, h1, h2⟩
      · exact absurd rfl h1
  · obtain ⟨hnd, m', hh, hr⟩ := h.node i nd π h0 hn hl
    rw [mkReqs_spec (hs.reads π _ m' hnd hh).1 hr]
    constructor
    · rintro ⟨raw, h1, h2⟩
      exact ⟨raw, h2, .inr ⟨located_ne hl h0, _, m', hh, h1⟩⟩
    · rintro ⟨raw, h2, ⟨h1, _⟩ | ⟨_, p, m'', hh', h1⟩⟩
      · exact absurd h1 (located_ne hl h0)
      · obtain ⟨_, rfl⟩ := hh.fn hh'
        exact ⟨raw, h1, h2⟩

variable {d : Dep N S}

/-- linking to a package already there -/
theorem Follows.satisfy (h : Follows env m lock g) (hm : m.Proper) (hs : Settled env m lock) (hg : GInv env g) (hp : DepPre g d) {x : Nat}
    (hsd : satisfyDependency env g d = some (g', x)) : Follows env m lock g' := by
  have hg' : GInv env g' := GStep.ginv (lock := none) hg (.link d hp hsd)
  have hk : Kept g g' := GStep.kept (lock := none) hg (.link d hp hsd)
  obtain ⟨h1, h2, xn, h3, h4⟩ := satisfy_some hsd
  subst h1
  obtain ⟨nd, hn, hreq, _⟩ := id hp
  obtain ⟨π, hl⟩ := located_exists hg hp.lt
  obtain ⟨u, hu, hc⟩ := resolveDep_holder hg.ord h2
  obtain ⟨un, hun⟩ := within_exists hu
  obtain ⟨up, hup⟩ := located_exists hg (lt_of_get hun)
  obtain ⟨hx, hx0⟩ := located_child hg hc hup
  obtain ⟨hxn, m', hh, _⟩ := h.node x xn _ hx0 h3 hx
  obtain ⟨π', p, k1, k2, k3⟩ := hs.fits π d.name d.spec d.ty (h.needed hg hl) ((h.wants hm hs hg hn hl _ _ _).1 hreq)
  have he : up ++ [d.name] = π' := by
    by_contra hne
    have := k3 up _ _ (prefix_of_within hg hu hl hup) hxn hh hne
    rw [h4] at this; cases this
  subst he
  refine ⟨?_, ?_, ?_⟩
  · intro i z σ h0 hz hzl
    obtain ⟨y, hy, rfl⟩ := linkAt_inv hz
    exact h.node i y σ h0 hy (located_back hg hg' hk (lt_of_get hy) hzl)
  · intro z hz
    obtain ⟨y, hy, rfl⟩ := linkAt_inv hz
    exact h.root y hy
  · intro e he dn σ hdn hσ
    rw [linkAt_edges, List.mem_append, List.mem_singleton] at he
    obtain ⟨y, hy, rfl⟩ := linkAt_inv hdn
    rcases he with he | rfl
    · obtain ⟨π', p', a, b⟩ := h.link e he y σ hy (located_back hg hg' hk (hg.edge_lt he).1 hσ)
      exact ⟨π', p', a, located_of_kept hk b⟩
    · have hσ' := located_back hg hg' hk hp.lt hσ
      rw [located_fn hg hσ' hl]
      dsimp only at hy
      rw [h3] at hy; cases hy
      obtain ⟨yn, hyn, hname⟩ := hg.resolve_get h2
      rw [h3] at hyn; cases hyn
      refine ⟨_, p, ?_, located_of_kept hk hx⟩
      rw [show (linkUpd g d x xn).name = d.name from hname]
      exact k1

theorem climb_stop (env : Env N P S) (g : Graph N P S) (name : N) (spec : S) (pkg : P) (u : Nat) (l2 : List Nat) (l1 : List Nat) :
    ∀ target, (∀ x ∈ l1 ++ [u], blocked env g name spec pkg x = false) → (∀ x ∈ l1, g.nodePath x ≠ g.nodePath u) →
    climb env g name spec pkg (some (g.nodePath u)) target (l1 ++ u :: l2) = u := by
  induction l1 with
  | nil =>
    intro target hb _
    have := hb u (by simp)
    simp only [blocked, Bool.or_eq_false_iff] at this
    simp [climb, this.1, this.2]
  | cons a l1 ih =>
    intro target hb hne
    have := hb a (by simp)
    simp only [blocked, Bool.or_eq_false_iff] at this
    have hna : ¬ (some (g.nodePath u) = some (g.nodePath a)) := by
      intro he; exact hne a (by simp) (Option.some.inj he).symm
    simp only [List.cons_append, climb, this.1, this.2, Bool.false_eq_true, if_false, if_neg hna]
    exact ih a (fun x hx => hb x (by simp only [List.cons_append]; exact List.mem_cons_of_mem _ hx))
      (fun x hx => hne x (List.mem_cons_of_mem _ hx))

theorem placeChild_climb (h : GInv env g) {dep : Dep N S} (hp : DepPre g dep) {pkg : P} {m : Manifest N}
    {tp : Option (List N)} {nd : Node N P S} (hn : Node.new env.parse dep.name pkg m false = some nd) :
    ∃ r, placeChild env g dep pkg m tp = some r ∧ r.child = g.nodes.length ∧
      r.graph = placeAt g dep nd (climb env g dep.name dep.spec pkg (tp.map List.dropLast) dep.node (g.ancestors dep.node)) := by
  have hlt := hp.lt
  have hcl : climb env ((g.addNode nd).addEdge ⟨dep.node, g.nodes.length, dep.spec, dep.ty⟩) dep.name dep.spec pkg
      (tp.map List.dropLast) dep.node
      (((g.addNode nd).addEdge ⟨dep.node, g.nodes.length, dep.spec, dep.ty⟩).ancestors dep.node)
      = climb env g dep.name dep.spec pkg (tp.map List.dropLast) dep.node (g.ancestors dep.node) := by
    rw [addNE_ancestors h nd _ hlt]
    apply climb_congr
    · intro x hx; exact addNE_conflictBelow h nd _ rfl _ _ (anc_lt h hlt hx)
    · intro x hx; unfold conflictOwn; rw [addNE_get nd _ (anc_lt h hlt hx)]
    · intro x hx; exact addNE_path h nd _ (anc_lt h hlt hx)
  unfold placeChild
  rw [hn, ← hcl]
  exact ⟨_, rfl, rfl, rfl⟩

theorem mkReqs_isSome {parse : N → Str → Option S} {m' : Manifest N} (h : ∀ d ∈ m'.deps ++ m'.optDeps, parse d.1 d.2 ≠ none) :
    ∃ r, mkReqs parse m' false = some r := by
  have gen : ∀ (l : List ((N × Str) × DepType)) (acc : IMap N (S × DepType)), (∀ d ∈ l, parse d.1.1 d.1.2 ≠ none) →
      ∃ r, reqFold parse (some acc) l = some r := by
    intro l
    induction l with
    | nil => intro acc _; exact ⟨acc, rfl⟩
    | cons a l ih =>
      intro acc hl
      cases hp : parse a.1.1 a.1.2 with
      | none => exact absurd hp (hl a (by simp))
      | some s =>
        obtain ⟨r, hr⟩ := ih (acc.insert a.1.1 (s, a.2)) (fun d hd => hl d (List.mem_cons_of_mem _ hd))
        exact ⟨r, by simpa [reqFold, hp] using hr⟩
  refine gen (m'.deps.map (fun d => (d, DepType.prod)) ++ m'.optDeps.map (fun d => (d, DepType.opt)) ++ []) [] ?_
  intro d hd
  simp only [List.append_nil, List.mem_append, List.mem_map] at hd
  rcases hd with ⟨x, hx, rfl⟩ | ⟨x, hx, rfl⟩
  · exact h x (List.mem_append_left _ hx)
  · exact h x (List.mem_append_right _ hx)

/-- placing a package from the lockfile: always possible, and at its place in the lockfile -/
theorem Follows.place (h : Follows env m lock g) (hm : m.Proper) (hs : Settled env m lock) (hg : GInv env g) (hp : DepPre g d)
    (hsd : satisfyDependency env g d = none) :
    ∃ p ent r, satisfyFromLockfile env lock g d = some (some (p, ent)) ∧
      placeChild env g d p ent.manifest (some ent.path) = some r ∧ Follows env m lock r.graph ∧ r.child = g.nodes.length := by
  obtain ⟨nd, hn, hreq, _⟩ := id hp
  obtain ⟨π, hl⟩ := located_exists hg hp.lt
  have hneed := h.needed hg hl
  have hwant := (h.wants hm hs hg hn hl _ _ _).1 hreq
  obtain ⟨π', p, k1, k2, k3⟩ := hs.fits π d.name d.spec d.ty hneed hwant
  have hneed' : Needed env m lock π' := .dep hneed hwant k1
  obtain ⟨up, m', hup, rfl, hholds⟩ := k1.holds
  obtain ⟨ent, e1, e2, e3⟩ := id hholds
  have hpath := hs.paths _ ent hneed' e1
  obtain ⟨reqs, hreqs⟩ := mkReqs_isSome (hs.reads _ _ m' hneed' hholds).2
  have hnew : Node.new env.parse d.name p ent.manifest false = some { name := d.name, pkg := p, reqs := reqs } := by
    unfold Node.new; rw [e3, hreqs]; rfl
  have hfrom : satisfyFromLockfile env lock g d = some (some (p, ent)) := by
    unfold satisfyFromLockfile
    rw [lockWalk_iff, List.reverse_reverse, ((locatedAt_iff hg.folderTree hg.ord).1 hl).2]
    obtain ⟨u, down, h1, h2, _, h4⟩ := k1
    have : up = u := by simpa using h2
    subst this
    exact ⟨up, down, h1, e1, e2, k2, h4⟩
  obtain ⟨r, hr, hchild, hgraph⟩ := placeChild_climb (tp := some ent.path) hg hp hnew
  refine ⟨p, ent, r, hfrom, hr, ?_, hchild⟩
  -- the folder it goes to
  obtain ⟨u, hu, hwu⟩ := located_prefix hl hup
  have hpu := ((locatedAt_iff hg.folderTree hg.ord).1 hu).2
  obtain ⟨l1, l2, hsplit⟩ := List.append_of_mem ((mem_ancestors hg.ord _ _).2 hwu)
  have hsort := ancestors_sorted hg.ord d.node
  rw [hsplit] at hsort
  have hl1 : ∀ x ∈ l1, u < x := by
    intro x hx
    exact (List.pairwise_append.1 hsort).2.2 x hx u (by simp)
  have hbetween : ∀ x ∈ l1 ++ [u], Within g d.node x ∧ Within g x u := by
    intro x hx
    have hxm : x ∈ g.ancestors d.node := by
      rw [hsplit]
      rcases List.mem_append.1 hx with hx | hx
      · exact List.mem_append_left _ hx
      · rw [List.mem_singleton] at hx; subst hx; simp
    have hwx := (mem_ancestors hg.ord _ _).1 hxm
    refine ⟨hwx, ?_⟩
    rcases within_linear hwx hwu with h | h
    · exact h
    · have := within_le hg.ord h
      have hux : u ≤ x := by
        rcases List.mem_append.1 hx with hx | hx
        · exact Nat.le_of_lt (hl1 x hx)
        · rw [List.mem_singleton] at hx; omega
      have : x = u := by omega
      subst this; exact h
  have hfree : ∀ x ∈ l1 ++ [u], blocked env g d.name d.spec p x = false := by
    intro x hx
    obtain ⟨w1, w2⟩ := hbetween x hx
    obtain ⟨xn, hxn⟩ := within_exists w1
    obtain ⟨ξ, hξ⟩ := located_exists hg (lt_of_get hxn)
    have q1 : ξ <+: π := prefix_of_within hg w1 hl hξ
    have q2 : up <+: ξ := prefix_of_within hg w2 hξ hu
    have hnear : Nearest lock ξ d.name (up ++ [d.name]) p := k1.between q2 q1
    rw [blocked, Bool.or_eq_false_iff]
    constructor
    · rw [Bool.eq_false_iff]
      intro hcb
      obtain ⟨y, yn, e, c1, c2, c3, c4, c5, c6⟩ := (conflictBelow_iff hg x d.name d.spec).1 hcb
      obtain ⟨w, hw, hc⟩ := resolveDep_holder hg.ord c1
      obtain ⟨wn, hwn⟩ := within_exists hw
      obtain ⟨ω, hω⟩ := located_exists hg (lt_of_get hwn)
      obtain ⟨hy, hy0⟩ := located_child hg hc hω
      obtain ⟨hyn, my, hhy, _⟩ := h.node y yn _ hy0 c2 hy
      obtain ⟨yn', hyn', hname⟩ := hg.resolve_get c1
      rw [c2] at hyn'; cases hyn'
      obtain ⟨σ, hσ⟩ := located_exists hg (hg.edge_lt c4).1
      subst c5
      obtain ⟨π'', p'', a, b⟩ := h.link e c4 yn σ c2 hσ
      rw [hname] at a
      have := located_fn hg b hy
      subst this
      rcases hnear.min (prefix_of_within hg hw hξ hω) hhy with heq | ⟨z, hz, heq⟩
      · rw [heq] at hhy
        rw [(hhy.fn hholds).1, k2] at c3; cases c3
      · have hup' : up = ω ++ z := List.append_cancel_right heq
        subst hup'
        rcases a.min (w := ω ++ z) (q2.trans (prefix_of_within hg c6 hσ hξ)) hholds with heq' | ⟨t, ht, heq'⟩
        · have := congrArg List.length heq'
          have := List.length_pos_iff.2 hz
          simp only [List.length_append] at *; omega
        · have := congrArg List.length heq'
          have := List.length_pos_iff.2 hz
          simp only [List.length_append] at *; omega
    · unfold conflictOwn
      rw [hxn, Option.bind_some]
      cases hq : xn.reqs.get? d.name with
      | none => rfl
      | some v =>
        obtain ⟨req, ty⟩ := v
        obtain ⟨π2, p2, f1, f2, _⟩ := hs.fits ξ d.name req ty (h.needed hg hξ) ((h.wants hm hs hg hxn hξ _ _ _).1 hq)
        rw [(hnear.fn f1).2]
        simp [f2]
  have hclimb : climb env g d.name d.spec p ((some ent.path).map List.dropLast) d.node (g.ancestors d.node) = u := by
    rw [hsplit, hpath]
    have hlock : (some (up ++ [d.name])).map List.dropLast = some (g.nodePath u) := by simp [hpu]
    rw [hlock]
    refine climb_stop env g d.name d.spec p u l2 l1 d.node hfree ?_
    intro x hx he
    obtain ⟨w1, _⟩ := hbetween x (List.mem_append_left _ hx)
    have : x = u := locatedAt_inj hg.folderTree ((locatedAt_iff hg.folderTree hg.ord).2 ⟨within_exists w1, he.trans hpu⟩) hu
    have := hl1 x hx
    omega
  rw [hclimb] at hgraph
  have hsrc : Source env (some lock) g d p ent.manifest (some ent.path) := .inr ⟨lock, ent, rfl, hfrom, rfl, rfl⟩
  have hstep : GStep env (some lock) g r.graph := .place d hp hsd hsrc hr
  have hg' := hstep.ginv hg
  have hk := hstep.kept hg
  rw [hgraph] at hg' hk ⊢
  have hul : u < g.nodes.length := by
    obtain ⟨un, hun⟩ := within_exists hwu
    exact lt_of_get hun
  have hc : LocatedAt (placeAt g d { name := d.name, pkg := p, reqs := reqs } u) g.nodes.length (up ++ [d.name]) := by
    have := placeAt_new g d { name := d.name, pkg := p, reqs := reqs } u hp.lt hul
    exact .inside this rfl (located_of_kept hk hu)
  refine ⟨?_, ?_, ?_⟩
  · intro i z σ h0 hz hzl
    rcases placeAt_cases _ d _ u hp.lt hul hz with ⟨_, y, hy, rfl⟩ | ⟨rfl, rfl⟩
    · exact h.node i y σ h0 hy (located_back hg hg' hk (lt_of_get hy) hzl)
    · rw [located_fn hg' hzl hc]
      exact ⟨hneed', m', hholds, hreqs⟩
  · intro z hz
    rcases placeAt_cases _ d _ u hp.lt hul hz with ⟨_, y, hy, rfl⟩ | ⟨h0, rfl⟩
    · exact h.root y hy
    · have := hp.lt; omega
  · intro e he dn σ hdn hσ
    rw [placeAt_edges, List.mem_append, List.mem_singleton] at he
    rcases he with he | rfl
    · rcases placeAt_cases _ d _ u hp.lt hul hdn with ⟨_, y, hy, rfl⟩ | ⟨h0, rfl⟩
      · obtain ⟨π', p', a, b⟩ := h.link e he y σ hy (located_back hg hg' hk (hg.edge_lt he).1 hσ)
        exact ⟨π', p', a, located_of_kept hk b⟩
      · have := (hg.edge_lt he).2; omega
    · have hσ' := located_back hg hg' hk hp.lt hσ
      rw [located_fn hg hσ' hl]
      rcases placeAt_cases _ d _ u hp.lt hul hdn with ⟨hlt, _⟩ | ⟨_, rfl⟩
      · simp at hlt
      · exact ⟨_, p, k1, hc⟩


/-! ### states -/

/-- nothing was ever sent to the registry -/
structure Quiet (s : RState N P S) : Prop where
  chan : s.chan = []
  fetches : s.fetches = []
  inFlight : s.inFlight = 0
  active : s.active = []
  ready : s.ready = []

theorem Follows.processReq {s : RState N P S} {rest : List (Dep N S)} (hm : m.Proper) (hs : Settled env m lock)
    (h : SInv env s (d :: rest)) (hf : Follows env m lock s.graph) (hq : Quiet s) :
    ∃ s', processReq env (some lock) s d = .ok s' ∧ Follows env m lock s'.graph ∧ Quiet s' ∧
      s'.q.length + s.graph.nodes.length = s.q.length + s'.graph.nodes.length := by
  unfold Oro.processReq
  cases hsd : satisfyDependency env s.graph d with
  | some v =>
    obtain ⟨g', x⟩ := v
    have hlen : g'.nodes.length = s.graph.nodes.length := by
      rw [(satisfy_some hsd).1, linkAt_length]
    exact ⟨_, rfl, hf.satisfy hm hs h.pinv.ginv h.pre1 hsd, ⟨hq.chan, hq.fetches, hq.inFlight, hq.active, hq.ready⟩, by
      dsimp only; rw [hlen]⟩
  | none =>
    obtain ⟨p, ent, r, h1, h2, h3, h4⟩ := hf.place hm hs h.pinv.ginv h.pre1 hsd
    dsimp only
    rw [h1]
    dsimp only
    rw [h2]
    have hlen : r.graph.nodes.length = s.graph.nodes.length + 1 := by
      obtain ⟨nd, t, _, _, e, _⟩ := placeChild_eq h.pinv.ginv h.pre1 hsd h2
      rw [e, placeAt_length]
    refine ⟨_, rfl, h3, ⟨hq.chan, hq.fetches, hq.inFlight, hq.active, hq.ready⟩, ?_⟩
    simp only [List.length_append, List.length_singleton, hlen]
    omega

theorem Follows.fold (hm : m.Proper) (hs : Settled env m lock) (l : List (Dep N S)) : ∀ {s : RState N P S}, SInv env s l →
    Follows env m lock s.graph → Quiet s →
    ∃ s', foldE (Oro.processReq env (some lock)) s l = .ok s' ∧ Follows env m lock s'.graph ∧ Quiet s' ∧
      s'.q.length + s.graph.nodes.length = s.q.length + s'.graph.nodes.length := by
  induction l with
  | nil => intro s _ hf hq; exact ⟨s, rfl, hf, hq, rfl⟩
  | cons a l ih =>
    intro s h hf hq
    obtain ⟨s1, h1, h2, h3, h4⟩ := hf.processReq hm hs h hq
    obtain ⟨s2, k1, k2, k3, k4⟩ := ih (h.processReq h1) h2 h3
    refine ⟨s2, ?_, k2, k3, by omega⟩
    simp only [foldE, h1]
    exact k1

/-- every event is the handling of the next package, which succeeds -/
theorem Follows.rstep {s : RState N P S} {ev : REvent S} {r : Except ResolveErr (RState N P S)} (hm : m.Proper) (hs : Settled env m lock) (h : SInv env s [])
    (hf : Follows env m lock s.graph) (hq : Quiet s) (hr : rstep env (some lock) s ev = some r) :
    ∃ s', r = .ok s' ∧ Follows env m lock s'.graph ∧ Quiet s' ∧
      s'.q.length + 1 + s.graph.nodes.length = s.q.length + s'.graph.nodes.length := by
  cases ev with
  | pop =>
    simp only [Oro.rstep, popStep] at hr
    cases hqq : s.q with
    | nil => rw [hqq] at hr; cases hr
    | cons i q =>
      rw [hqq] at hr
      simp only [Option.some.injEq] at hr
      obtain ⟨s', h1, h2, h3, h4⟩ := Follows.fold (s := { s with q := q }) hm hs _ (h.pop hqq) hf ⟨hq.chan, hq.fetches, hq.inFlight, hq.active, hq.ready⟩
      rw [← hr]
      refine ⟨s', h1, h2, h3, ?_⟩
      simp only [List.length_cons] at h4 ⊢
      omega
  | pull => simp [Oro.rstep, pullStep, hq.inFlight] at hr
  | complete spec => simp [Oro.rstep, completeStep, hq.inFlight] at hr
  | deliver => simp [Oro.rstep, deliverStep, hq.inFlight] at hr

theorem Follows.init {nm : N} {pk : P} {root : Node N P S} (hr : Node.new env.parse nm pk m true = some root) :
    Follows env m lock (rinit root).graph ∧ Quiet (rinit root) := by
  refine ⟨⟨?_, ?_, ?_⟩, ⟨rfl, rfl, rfl, rfl, rfl⟩⟩
  · intro i nd π h0 hi
    cases i with
    | zero => exact absurd rfl h0
    | succ i => simp [rinit] at hi
  · intro nd hn
    simp only [rinit, List.getElem?_cons_zero, Option.some.injEq] at hn
    subst hn
    exact (nodeNew_spec hr).2.2.2.2.2
  · intro e he; simp [rinit] at he

theorem RReach.follows {nm : N} {pk : P} {root : Node N P S} (hr : Node.new env.parse nm pk m true = some root) (hm : m.Proper)
    (hs : Settled env m lock) {s : RState N P S} (h : RReach env (some lock) root s) : Follows env m lock s.graph ∧ Quiet s := by
  induction h with
  | init => exact Follows.init hr
  | step ev h1 h2 ih =>
    obtain ⟨s', e, a, b, _⟩ := ih.1.rstep hm hs (h1.sinv ⟨nm, pk, m, hr⟩) ih.2 h2
    cases e
    exact ⟨a, b⟩

end
end Oro
