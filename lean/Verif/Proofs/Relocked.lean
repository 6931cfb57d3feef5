import Verif.Proofs.Relock
/- A lockfile that describes a resolved tree settles everything the project needs. -/

set_option linter.unusedSectionVars false

namespace Oro
variable {N P S : Type} [DecidableEq N] [DecidableEq S]
open Graph

/-- The lockfile has exactly the packages of the tree, at their places, with their requirements. -/
structure Describes (env : Env N P S) (lock : LockTree N P) (g : Graph N P S) : Prop where
  only : ∀ π ent, lock.get? π = some ent → ∃ i nd, i ≠ 0 ∧ g.nodes[i]? = some nd ∧ LocatedAt g i π ∧ ent.path = π ∧
    ent.pkg = some (some nd.pkg) ∧ ent.manifest.Proper ∧
    (∀ d ∈ ent.manifest.deps ++ ent.manifest.optDeps, env.parse d.1 d.2 ≠ none) ∧
    ∀ n spec ty, nd.reqs.get? n = some (spec, ty) ↔ ∃ raw, Requires ent.manifest false n raw ty ∧ env.parse n raw = some spec
  all : ∀ i π, i ≠ 0 → LocatedAt g i π → lock.get? π ≠ none

/-- the lockfile describes the tree, in which each requirement is met by what it loads, and nothing else around -/
structure Relockable (env : Env N P S) (m : Manifest N) (lock : LockTree N P) (g : Graph N P S) : Prop where
  desc : Describes env lock g
  proper : m.Proper
  root : ∀ nd, g.nodes[0]? = some nd → mkReqs env.parse m true = some nd.reqs
  loads : ∀ i n spec ty, Declares g i n spec ty → ∃ c cn, NodeLoads g i n c ∧ g.nodes[c]? = some cn ∧ env.sat cn.pkg spec = true
  one : Unambiguous env g

section
variable {env env0 : Env N P S} {m : Manifest N} {lock : LockTree N P} {g : Graph N P S}

theorem located_node {i : Nat} {π : List N} (hl : LocatedAt g i π) : ∃ nd, g.nodes[i]? = some nd := by
  cases hl <;> exact ⟨_, by assumption⟩

theorem Describes.ent (h : Describes env lock g) (hg : GInv env0 g) {i : Nat} {nd : Node N P S} {π : List N} (h0 : i ≠ 0)
    (hn : g.nodes[i]? = some nd) (hl : LocatedAt g i π) : ∃ ent, lock.get? π = some ent ∧ ent.path = π ∧
    ent.pkg = some (some nd.pkg) ∧ ent.manifest.Proper ∧
    (∀ d ∈ ent.manifest.deps ++ ent.manifest.optDeps, env.parse d.1 d.2 ≠ none) ∧
    ∀ n spec ty, nd.reqs.get? n = some (spec, ty) ↔ ∃ raw, Requires ent.manifest false n raw ty ∧ env.parse n raw = some spec := by
  obtain ⟨ent, he⟩ := Option.ne_none_iff_exists'.1 (h.all i π h0 hl)
  obtain ⟨j, jn, _, hj, hjl, hrest⟩ := h.only π ent he
  have := locatedAt_inj hg.folderTree hl hjl
  subst this
  rw [hn] at hj; cases hj
  exact ⟨ent, he, hrest⟩

/-- a package in a folder of the lockfile is listed by that folder in the tree -/
theorem Describes.listed (h : Describes env lock g) (hg : GInv env0 g) {i : Nat} {nd : Node N P S} {π : List N} {n : N}
    (hn : g.nodes[i]? = some nd) (hl : LocatedAt g i π) {ent : LockEntry N P} (he : lock.get? (π ++ [n]) = some ent) :
    ∃ c cn, nd.children.get? n = some c ∧ g.nodes[c]? = some cn ∧ LocatedAt g c (π ++ [n]) ∧ ent.pkg = some (some cn.pkg) := by
  obtain ⟨c, cn, hc0, hc, hcl, _, hpk, _⟩ := h.only _ ent he
  have hcl0 := hcl
  generalize hσ : π ++ [n] = σ at hcl
  cases hcl with
  | root => exact absurd rfl hc0
  | @inside _ p τ cn' hcn hp hpl =>
    rw [hc] at hcn; cases hcn
    obtain ⟨h1, h2⟩ := List.append_inj' hσ rfl
    subst h1
    have h2 : n = cn.name := by simpa using h2
    have := locatedAt_inj hg.folderTree hl hpl
    subst this
    obtain ⟨p, pn, g1, _, g3, g4⟩ := hg.par c cn hc hc0
    rw [hp] at g1; cases g1
    rw [hn] at g3; cases g3
    exact ⟨c, cn, by rw [h2]; exact g4, hc, (by rw [h2] at hcl0; exact hcl0), hpk⟩

theorem Relockable.wants (h : Relockable env m lock g) (hg : GInv env0 g) {i : Nat} {nd : Node N P S} {π : List N}
    (hn : g.nodes[i]? = some nd) (hl : LocatedAt g i π) (n : N) (spec : S) (ty : DepType) :
    Wants env m lock π n spec ty ↔ nd.reqs.get? n = some (spec, ty) := by
  by_cases h0 : i = 0
  · subst h0
    have := located_fn hg hl (.root hn)
    subst this
    rw [mkReqs_spec h.proper (h.root nd hn)]
    constructor
    · rintro ⟨raw, h2, ⟨_, h1⟩ | ⟨h1, _⟩⟩
      · exact ⟨raw, h1, h2⟩
      · exact absurd rfl h1
    · rintro ⟨raw, h1, h2⟩
      exact ⟨raw, h2, .inl ⟨rfl, h1⟩⟩
  · obtain ⟨ent, e1, e2, e3, e4, e5, e6⟩ := h.desc.ent hg h0 hn hl
    rw [e6]
    constructor
    · rintro ⟨raw, h2, ⟨h1, _⟩ | ⟨_, p, m', ⟨ent', g1, g2, rfl⟩, h1⟩⟩
      · exact absurd h1 (located_ne hl h0)
      · rw [e1] at g1; cases g1
        exact ⟨raw, h1, h2⟩
    · rintro ⟨raw, h1, h2⟩
      exact ⟨raw, h2, .inr ⟨located_ne hl h0, _, _, ⟨ent, e1, e3, rfl⟩, h1⟩⟩

theorem Describes.nearest (h : Describes env lock g) (hg : GInv env0 g) {i c : Nat} {n : N} (hld : NodeLoads g i n c) :
    ∀ {π : List N}, LocatedAt g i π → ∃ π' cn, g.nodes[c]? = some cn ∧ LocatedAt g c π' ∧ Nearest lock π n π' cn.pkg := by
  induction hld with
  | @here i n c nd hn hc =>
    intro π hl
    obtain ⟨hcl, hc0⟩ := located_child hg (show g.child? i n = some c by simp [child?, hn, hc]) hl
    obtain ⟨cn, hcn⟩ := located_node hcl
    obtain ⟨ent, e1, _, e3, _⟩ := h.ent hg hc0 hcn hcl
    refine ⟨_, cn, hcn, hcl, π, [], by simp, rfl, ⟨_, ent, e1, e3, rfl⟩, ?_⟩
    intro near hne hpre
    exact absurd (List.prefix_nil.1 hpre) hne
  | @up i p n c nd hn hc hp _ ih =>
    intro π hl
    have hl0 := hl
    cases hl with
    | root h0 =>
      obtain ⟨r, hr, hrp⟩ := hg.root
      rw [hn] at hr; cases hr; rw [hp] at hrp; cases hrp
    | @inside _ _ τ nd' hn' hp' hpl =>
      rw [hn] at hn'; cases hn'
      rw [hp] at hp'; cases hp'
      obtain ⟨π', cn, h1, h2, up, down, rfl, rfl, h3, h4⟩ := ih hpl
      refine ⟨_, cn, h1, h2, up, down ++ [nd.name], by simp, rfl, h3, ?_⟩
      intro near hne hpre e he
      rcases List.prefix_concat_iff.1 hpre with rfl | hpre
      · obtain ⟨c', _, hx, _⟩ := h.listed hg (n := n) hn hl0 (by rw [← he]; simp)
        rw [hc] at hx; cases hx
      · exact h4 near hne hpre e he

theorem Relockable.located (h : Relockable env m lock g) (hg : GInv env0 g) {π : List N} (hn : Needed env m lock π) :
    ∃ i, LocatedAt g i π := by
  induction hn with
  | project =>
    obtain ⟨nd, h0, _⟩ := hg.root
    exact ⟨0, .root h0⟩
  | @dep π π' n spec ty p _ hw hnear ih =>
    obtain ⟨i, hl⟩ := ih
    obtain ⟨nd, hnd⟩ := located_node hl
    obtain ⟨c, cn, h1, h2, h3⟩ := h.loads i n spec ty ⟨nd, hnd, (h.wants hg hnd hl n spec ty).1 hw⟩
    obtain ⟨π'', cn', _, g2, g3⟩ := h.desc.nearest hg h1 hl
    rw [(hnear.fn g3).1]
    exact ⟨c, g2⟩

theorem Relockable.settled (h : Relockable env m lock g) (hg : GInv env0 g) : Settled env m lock where
  fits := by
    intro π n spec ty hn hw
    obtain ⟨i, hl⟩ := h.located hg hn
    obtain ⟨nd, hnd⟩ := located_node hl
    have hdec : Declares g i n spec ty := ⟨nd, hnd, (h.wants hg hnd hl n spec ty).1 hw⟩
    obtain ⟨c, cn, h1, h2, h3⟩ := h.loads i n spec ty hdec
    obtain ⟨π', cn', g1, g2, g3⟩ := h.desc.nearest hg h1 hl
    rw [h2] at g1; cases g1
    refine ⟨π', _, g3, h3, ?_⟩
    rintro up p' m' hup _ ⟨ent, e1, e2, _⟩ hne
    obtain ⟨u, hu, hwu⟩ := located_prefix hl hup
    obtain ⟨un, hun⟩ := located_node hu
    obtain ⟨c', cn', k1, k2, k3, k4⟩ := h.desc.listed hg hun hu e1
    rw [e2] at k4; cases k4
    refine h.one i n spec ty c hdec h1 u un c' cn' hwu hun k1 k2 ?_
    rintro rfl
    exact hne (located_fn hg k3 g2)
  paths := by
    intro π ent _ he
    obtain ⟨_, _, _, _, _, hp, _⟩ := h.desc.only π ent he
    exact hp
  reads := by
    rintro π p m' _ ⟨ent, h1, h2, rfl⟩
    obtain ⟨_, _, _, _, _, _, _, h3, h4, _⟩ := h.desc.only π ent h1
    exact ⟨h3, h4⟩

/-! ### every package is there because an earlier one needed it -/

theorem RReach.older {env : Env N P S} {lock : Option (LockTree N P)} {root : Node N P S} (hr : IsRoot env root) {s : RState N P S}
    (h : RReach env lock root s) : ∀ i, i ≠ 0 → i < s.graph.nodes.length → ∃ e ∈ s.graph.edges, e.dst = i ∧ e.src < i := by
  refine RReach.graph_ind (I := fun g => ∀ i, i ≠ 0 → i < g.nodes.length → ∃ e ∈ g.edges, e.dst = i ∧ e.src < i) hr ?_ ?_ h
  · intro i h0 hi
    simp only [List.length_singleton] at hi
    omega
  · intro g g' hg hI hs i h0 hi
    cases hs with
    | link d hp hsd =>
      obtain ⟨rfl, _⟩ := satisfy_some hsd
      rw [linkAt_length] at hi
      obtain ⟨e, h1, h2⟩ := hI i h0 hi
      exact ⟨e, by rw [linkAt_edges]; exact List.mem_append_left _ h1, h2⟩
    | @place d _ _ _ r hp hsd hsrc hpl =>
      obtain ⟨nd, t, _, _, e, _⟩ := placeChild_eq hg hp hsd hpl
      rw [e, placeAt_length] at hi
      by_cases hi' : i < g.nodes.length
      · obtain ⟨e', h1, h2⟩ := hI i h0 hi'
        exact ⟨e', by rw [e, placeAt_edges]; exact List.mem_append_left _ h1, h2⟩
      · have : i = g.nodes.length := by omega
        subst this
        refine ⟨⟨d.node, g.nodes.length, d.spec, d.ty⟩, ?_, rfl, hp.lt⟩
        rw [e, placeAt_edges]
        simp

theorem Relockable.needed (h : Relockable env m lock g) (hg : GInv env0 g) (hll : LinksLoad g)
    (hold : ∀ i, i ≠ 0 → i < g.nodes.length → ∃ e ∈ g.edges, e.dst = i ∧ e.src < i) :
    ∀ (i : Nat) (π : List N), LocatedAt g i π → Needed env m lock π := by
  intro i
  induction i using Nat.strongRecOn with
  | _ i ih =>
    intro π hl
    obtain ⟨nd, hnd⟩ := located_node hl
    by_cases h0 : i = 0
    · subst h0
      rw [located_fn hg hl (.root hnd)]
      exact .project
    · obtain ⟨e, he, rfl, hlt⟩ := hold i h0 (lt_of_get hnd)
      obtain ⟨k, hk⟩ := List.mem_iff_getElem?.1 he
      obtain ⟨sn, dn, h1, h2, h3, h4⟩ := hg.edgeReg k e hk
      obtain ⟨σ, hσ⟩ := located_exists hg (lt_of_get h1)
      have hld := hll e.src dn.name e ⟨sn, k, h1, h3, hk⟩
      obtain ⟨π', cn, g1, g2, g3⟩ := h.desc.nearest hg hld hσ
      rw [located_fn hg hl g2]
      exact .dep (ih e.src hlt σ hσ) ((h.wants hg h1 hσ _ _ _).2 h4) g3

/-! ### flat trees -/

theorem within_kept {g' : Graph N P S} (hk : Kept g g') {i a : Nat} (h : Within g i a) : Within g' i a := by
  induction h with
  | refl hn =>
    obtain ⟨nd, a, _⟩ := hk.1 _ _ hn
    exact .refl a
  | up hn hp _ ih =>
    obtain ⟨nd, a, _, _, _, c, _⟩ := hk.1 _ _ hn
    exact .up a (c.trans hp) ih

/-- a package linked to is in a folder around -/
theorem RReach.around {env : Env N P S} {lock : Option (LockTree N P)} {root : Node N P S} (hr : IsRoot env root) {s : RState N P S}
    (h : RReach env lock root s) : ∀ e ∈ s.graph.edges, ∃ p pn n, Within s.graph e.src p ∧ s.graph.nodes[p]? = some pn ∧
      pn.children.get? n = some e.dst := by
  refine RReach.graph_ind (I := fun g => ∀ e ∈ g.edges, ∃ p pn n, Within g e.src p ∧ g.nodes[p]? = some pn ∧
      pn.children.get? n = some e.dst) hr ?_ ?_ h
  · intro e he; cases he
  · intro g g' hg hI hs
    have hk := hs.kept hg
    have hold : ∀ e ∈ g.edges, ∃ p pn n, Within g' e.src p ∧ g'.nodes[p]? = some pn ∧ pn.children.get? n = some e.dst := by
      intro e he
      obtain ⟨p, pn, n, h1, h2, h3⟩ := hI e he
      obtain ⟨pn', k1, _, _, _, _, k2⟩ := hk.1 p pn h2
      exact ⟨p, pn', n, within_kept hk h1, k1, k2 n _ h3⟩
    intro e he
    cases hs with
    | link d hp hsd =>
      obtain ⟨h1, h2, xn, h3, _⟩ := satisfy_some hsd
      subst h1
      rw [linkAt_edges, List.mem_append, List.mem_singleton] at he
      rcases he with he | rfl
      · exact hold e he
      · obtain ⟨u, hu, hc⟩ := resolveDep_holder hg.ord h2
        obtain ⟨un, hun⟩ := within_exists hu
        rw [child?_eq hun] at hc
        obtain ⟨un', k1, _, _, _, _, k2⟩ := hk.1 u un hun
        exact ⟨u, un', d.name, within_kept hk hu, k1, k2 _ _ hc⟩
    | place d hp hsd hsrc hpl =>
      obtain ⟨nd, t, _, ht, hgr, _⟩ := placeChild_eq hg hp hsd hpl
      rw [hgr] at he hold hk ⊢
      rw [placeAt_edges, List.mem_append, List.mem_singleton] at he
      rcases he with he | rfl
      · exact hold e he
      · have hw : Within g d.node t := ht.within
        obtain ⟨tn, htn⟩ := within_exists hw
        have hc := placeAt_child g d nd t d.name (lt_of_get htn)
        rw [if_pos ⟨rfl, rfl⟩] at hc
        obtain ⟨tn', k1, _⟩ := hk.1 t tn htn
        rw [child?_eq k1] at hc
        exact ⟨t, tn', d.name, within_kept hk hw, k1, hc⟩

/-- if every package is there only once, links are sound and unambiguous -/
theorem RReach.flat {env env' : Env N P S} {lock : Option (LockTree N P)} {root : Node N P S} (hr : IsRoot env root) {s : RState N P S}
    (h : RReach env lock root s)
    (hflat : ∀ (i j : Nat) (a b : Node N P S), i ≠ 0 → j ≠ 0 → s.graph.nodes[i]? = some a → s.graph.nodes[j]? = some b → a.name = b.name → i = j) :
    LinksLoad s.graph ∧ Unambiguous env' s.graph := by
  have hg := (h.sinv hr).pinv.ginv
  have hkid : ∀ (p : Nat) (pn : Node N P S) (n : N) (c : Nat), s.graph.nodes[p]? = some pn → pn.children.get? n = some c →
      c ≠ 0 ∧ ∃ cn, s.graph.nodes[c]? = some cn ∧ cn.name = n := by
    intro p pn n c hp hc
    obtain ⟨cn, h1, h2, h3⟩ := hg.kid p pn n c hp hc
    refine ⟨?_, cn, h1, h3⟩
    rintro rfl
    obtain ⟨r, hr, hrp⟩ := hg.root
    rw [h1] at hr; cases hr; rw [h2] at hrp; cases hrp
  have hloads : ∀ {i n c}, NodeLoads s.graph i n c → c ≠ 0 ∧ ∃ cn, s.graph.nodes[c]? = some cn ∧ cn.name = n := by
    intro i n c hl
    induction hl with
    | here hn hc => exact hkid _ _ _ _ hn hc
    | up _ _ _ _ ih => exact ih
  constructor
  · rintro i n e hlk
    obtain ⟨nd, k, h1, h2, h3⟩ := id hlk
    obtain ⟨e', dn, g1, g2, g3, g4⟩ := hg.depReg i nd n k h1 h2
    rw [h3] at g1; cases g1
    obtain ⟨p, pn, n', q1, q2, q3⟩ := h.around hr e (List.mem_of_getElem? h3)
    obtain ⟨hd0, dn', q4, q5⟩ := hkid _ _ _ _ q2 q3
    rw [g3] at q4; cases q4
    subst g2
    subst g4
    subst q5
    cases hres : s.graph.resolveDep e.src dn.name with
    | none =>
      exfalso
      have hm := (mem_ancestors hg.ord _ _).2 q1
      unfold resolveDep at hres
      rw [List.findSome?_eq_none_iff] at hres
      have := hres p hm
      rw [child?_eq q2, q3] at this
      cases this
    | some c =>
      have hl := (resolveDep_iff hg.ord _ _ _).1 hres
      obtain ⟨c0, cn, c1, c2⟩ := hloads hl
      rw [hflat c e.dst cn dn c0 hd0 c1 g3 c2] at hl
      exact hl
  · intro i n spec ty c _ hl j jn c' cn' _ hj hc' hcn' hne
    exfalso
    obtain ⟨c0, cn, c1, c2⟩ := hloads hl
    obtain ⟨c0', cn'', c1', c2'⟩ := hkid _ _ _ _ hj hc'
    rw [hcn'] at c1'; cases c1'
    exact hne (hflat c' c cn' cn c0' c0 hcn' c1 (c2'.trans c2.symm))

end
end Oro
