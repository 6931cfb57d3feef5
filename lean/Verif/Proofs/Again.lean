import Verif.Spec.Again
import Verif.Props.Relocked
import Verif.Props.Works
/- Proofs for C81. -/

set_option linter.unusedSectionVars false

namespace Oro
namespace Again
open Graph

section alike
variable {P S : Type} [DecidableEq S] {g g' : Graph Str P S}

theorem Alike.symm (h : Alike g g') : Alike g' g := ⟨fun π p => (h.packages π p).symm, fun π ρ => (h.links π ρ).symm⟩

/-- the package at the same place in the other tree -/
theorem Alike.node (h : Alike g g') (ht : FolderTree g) (ho : g.Ord) (ht' : FolderTree g') (ho' : g'.Ord) {i : Nat} {nd : Node Str P S}
    (hi : g.nodes[i]? = some nd) : ∃ j nd', g'.nodes[j]? = some nd' ∧ g'.nodePath j = g.nodePath i ∧ nd'.pkg = nd.pkg ∧
      (j = 0 ↔ i = 0) ∧ (i ≠ 0 → nd'.name = nd.name) := by
  have hl := (locatedAt_iff (i := i) (π := g.nodePath i) ht ho).2 ⟨⟨nd, hi⟩, rfl⟩
  obtain ⟨j, nd', hl', hj, hp⟩ := (h.packages (g.nodePath i) nd.pkg).1 ⟨i, nd, hl, hi, rfl⟩
  have h0 : ∀ {g : Graph Str P S} {i : Nat} {π : List Str}, FolderTree g → LocatedAt g i π → (i = 0 ↔ π = []) := by
    intro g i π ht hl
    constructor
    · rintro rfl
      cases hl with
      | root _ => rfl
      | inside h1 h2 _ =>
        obtain ⟨_, h3, h4⟩ := ht.root
        rw [h1] at h3; cases h3; rw [h2] at h4; cases h4
    · rintro rfl; exact located_root hl
  refine ⟨j, nd', hj, ((locatedAt_iff ht' ho').1 hl').2, hp, by rw [h0 ht' hl', h0 ht hl], ?_⟩
  intro i0
  obtain ⟨σ, n1, h1, h2⟩ := Hoisted.located_snoc hl i0
  have j0 : j ≠ 0 := fun hh => i0 ((h0 ht hl).2 ((h0 ht' hl').1 hh))
  obtain ⟨τ, n2, h3, h4⟩ := Hoisted.located_snoc hl' j0
  rw [hi] at h1; cases h1
  rw [hj] at h3; cases h3
  rw [h2] at h4
  simpa using (List.append_inj' h4 rfl).2.symm

theorem Alike.located (h : Alike g g') {π : List Str} {i : Nat} (hl : LocatedAt g i π) : ∃ j, LocatedAt g' j π := by
  obtain ⟨nd, hi⟩ := located_node hl
  obtain ⟨j, _, hj, _⟩ := (h.packages π nd.pkg).1 ⟨i, nd, hl, hi, rfl⟩
  exact ⟨j, hj⟩

end alike

section resolve
variable {P S V I : Type} [DecidableEq S]
variable {env : Env Str P S} {lock : Option (LockTree Str P)} {root : Node Str P S} {s0 s : RState Str P S}
  {v : LockView P S V I} {c : Codec V I}

/-- an edge is the link of a requirement of its source under the name of its target -/
theorem linked_of_edge {g : Graph Str P S} (hg : GInv env g) {e : Edge S} (he : e ∈ g.edges) :
    ∃ dn, g.nodes[e.dst]? = some dn ∧ Linked g e.src dn.name e := by
  obtain ⟨k, hk⟩ := List.mem_iff_getElem?.1 he
  obtain ⟨sn, dn, h1, h2, h3, _⟩ := hg.edgeReg k e hk
  exact ⟨dn, h2, sn, k, h1, h3, hk⟩

theorem edge_of_linked {g : Graph Str P S} (hg : GInv env g) {i : Nat} {n : Str} {e : Edge S} (h : Linked g i n e) :
    e ∈ g.edges ∧ e.src = i ∧ ∃ dn, g.nodes[e.dst]? = some dn ∧ dn.name = n := by
  obtain ⟨nd, k, h1, h2, h3⟩ := h
  obtain ⟨e', dn, g1, g2, g3, g4⟩ := hg.depReg i nd n k h1 h2
  rw [h3] at g1; cases g1
  exact ⟨List.mem_of_getElem? h3, g2, dn, g3, g4⟩

/-- C81, the first half: resolving again from the lockfile just written gives the same tree. -/
theorem alike_again {nm : Str} {pk : P} {m : Manifest Str} (hr : Node.new env.parse nm pk m true = some root) (hm : m.Proper)
    (h0 : RReach env lock root s0) (hd0 : s0.done = true) (hll : LinksLoad s0.graph)
    (hans : Answered env s0.graph) (hone : Unambiguous env s0.graph)
    (hv : ∀ i nd, i ≠ 0 → s0.graph.nodes[i]? = some nd → ValidName nd.name)
    (hspec : ∀ i n spec ty, i ≠ 0 → Declares s0.graph i n spec ty → env.parse n (v.reqStr spec) = some spec)
    {toPackage : LNode V I → Option (Option P)}
    (hpk : ∀ (i : Nat) (nd : Node Str P S) (n : LNode V I), i ≠ 0 → s0.graph.nodes[i]? = some nd → n.name = nd.name →
      Records n (v.resolved nd.pkg) → toPackage n = some (some nd.pkg))
    {l l' : Lockfile V I} (hl : toLockfile v s0.graph = some l) (hrd : Lockfile.fromKdl c (l.toKdl c) = .ok l')
    (fetch : S → Option (P × Manifest Str)) (concurrency : Nat)
    (h : RReach { env with fetch := fetch, concurrency := concurrency } (some (l'.tree toPackage)) root s)
    (hd : s.done = true) :
    Alike s0.graph s.graph ∧ ∃ l2, toLockfile v s.graph = some l2 ∧ SameLockfile l2 l := by
  have hr0 : IsRoot env root := ⟨nm, pk, m, hr⟩
  have hr1 : IsRoot { env with fetch := fetch, concurrency := concurrency } root := ⟨nm, pk, m, hr⟩
  have hg := (h0.sinv hr0).pinv.ginv
  have hg1 := (h.sinv hr1).pinv.ginv
  obtain ⟨hcore, hloc, hdesc, hf⟩ := relocked_same hr hm h0 hd0 hll hans hone hv hspec hpk hl hrd fetch concurrency h hd
  obtain ⟨hinst, hlock⟩ := same_tree_same_contents hr0 hr1 h0 h hd0 hd hcore hloc hv hl
  obtain ⟨r0, r0n, r0r, r0p, r0m⟩ := h0.root_reqs hr0
  obtain ⟨r1, r1n, r1r, r1p, r1m⟩ := h.root_reqs hr1
  have hreq : ∀ {i j : Nat} {nd jn : Node Str P S} {π : List Str}, s0.graph.nodes[i]? = some nd → LocatedAt s0.graph i π →
      s.graph.nodes[j]? = some jn → LocatedAt s.graph j π → ∀ n, jn.reqs.get? n = nd.reqs.get? n := by
    intro i j nd jn π hi hil hj hjl n
    by_cases hπ : π = []
    · subst hπ
      have e1 := located_root hil
      have e2 := located_root hjl
      subst e1; subst e2
      rw [hi] at r0n; cases r0n
      rw [hj] at r1n; cases r1n
      rw [r1r, r0r]
    · have hi0 : i ≠ 0 := by rintro rfl; exact hπ (located_fn hg hil (.root hi))
      have hj0 : j ≠ 0 := by rintro rfl; exact hπ (located_fn hg1 hjl (.root hj))
      exact (hcore hi0 hj0 hi hil hj hjl).2 n
  -- where the two links of one requirement lead
  have hsame : ∀ {i j : Nat} {π ρ σ : List Str} {n : Str} {e e' : Edge S}, LocatedAt s0.graph i π → LocatedAt s.graph j π → Linked s0.graph i n e →
      Linked s.graph j n e' → LocatedAt s0.graph e.dst ρ → LocatedAt s.graph e'.dst σ → ρ = σ := by
    intro i j π ρ σ n e e' hil hjl he he' hρ hσ
    obtain ⟨ρ', _, _, h2, h3⟩ := hdesc.nearest hg (hll i n e he) hil
    have := located_fn hg hρ h2
    subst this
    obtain ⟨k1, k2, dn, k3, k4⟩ := edge_of_linked hg1 he'
    obtain ⟨σ', p, k5, k6⟩ := hf.link e' k1 dn π k3 (by rw [k2]; exact hjl)
    have := located_fn hg1 hσ k6
    subst this
    rw [k4] at k5
    exact (h3.fn k5).1
  refine ⟨⟨fun π p => (hinst π p).symm, ?_⟩, hlock⟩
  intro π ρ
  constructor
  · rintro ⟨e, he, hs, ht⟩
    obtain ⟨dn, h1, h2⟩ := linked_of_edge hg he
    obtain ⟨nd, h3, h4⟩ := linked_declares hg h2
    obtain ⟨j, hj⟩ := (hloc π).1 ⟨_, hs⟩
    obtain ⟨jn, hjn⟩ := located_node hj
    rw [← hreq h3 hs hjn hj] at h4
    obtain ⟨e', f1, _⟩ := (C04_all_linked hr1 h hd).1 j dn.name _ _ ⟨jn, hjn, h4⟩
    obtain ⟨k1, k2, dn', k3, _⟩ := edge_of_linked hg1 f1
    obtain ⟨σ, hσ⟩ := located_exists hg1 (lt_of_get k3)
    have := hsame hs hj h2 f1 ht hσ
    subst this
    exact ⟨e', k1, by rw [k2]; exact hj, hσ⟩
  · rintro ⟨e, he, hs, ht⟩
    obtain ⟨dn, h1, h2⟩ := linked_of_edge hg1 he
    obtain ⟨nd, h3, h4⟩ := linked_declares hg1 h2
    obtain ⟨j, hj⟩ := (hloc π).2 ⟨_, hs⟩
    obtain ⟨jn, hjn⟩ := located_node hj
    rw [hreq hjn hj h3 hs] at h4
    obtain ⟨e', f1, _⟩ := (C04_all_linked hr0 h0 hd0).1 j dn.name _ _ ⟨jn, hjn, h4⟩
    obtain ⟨k1, k2, dn', k3, _⟩ := edge_of_linked hg f1
    obtain ⟨σ, hσ⟩ := located_exists hg (lt_of_get k3)
    have := hsame hj hs f1 h2 hσ ht
    subst this
    exact ⟨e', k1, by rw [k2]; exact hj, hσ⟩

end resolve

section disk
variable {P S : Type} [DecidableEq S] {g g' : Graph Str P S} {pk : Hoisted.Pkgs P}
open Hoisted (Pkgs)

theorem Alike.nodeAt (h : Alike g g') (ht : FolderTree g) (ho : g.Ord) (ht' : FolderTree g') (ho' : g'.Ord) {i : Nat} {nd : Node Str P S}
    {π : List Str} (hi : g.nodes[i]? = some nd) (hl : LocatedAt g i π) : ∃ j nd', g'.nodes[j]? = some nd' ∧ LocatedAt g' j π ∧ nd'.pkg = nd.pkg ∧
      (j = 0 ↔ i = 0) ∧ (i ≠ 0 → nd'.name = nd.name) := by
  obtain ⟨j, nd', h1, h2, h3, h4, h5⟩ := h.node ht ho ht' ho' hi
  refine ⟨j, nd', h1, ?_, h3, h4, h5⟩
  rw [← ((locatedAt_iff ht ho).1 hl).2, ← h2]
  exact (locatedAt_iff ht' ho').2 ⟨⟨_, h1⟩, rfl⟩

theorem Alike.expected (h : Alike g g') (ht : FolderTree g) (ho : g.Ord) (ht' : FolderTree g') (ho' : g'.Ord) {p : Loc} {e : Hoisted.Entry}
    (he : Hoisted.Expected pk g p e) : Hoisted.Expected pk g' p e := by
  rcases he with ⟨i, nd, π, r, i0, hi, hl, hp, hc⟩ | ⟨hd, hp | ⟨i, π, i0, hl, hp⟩⟩
  · obtain ⟨j, nd', h1, h2, h3, h4, _⟩ := h.nodeAt ht ho ht' ho' hi hl
    exact .inl ⟨j, nd', π, r, fun hh => i0 (h4.1 hh), h1, h2, hp, by rw [h3]; exact hc⟩
  · exact .inr ⟨hd, .inl hp⟩
  · obtain ⟨nd, hi⟩ := located_node hl
    obtain ⟨j, nd', h1, h2, h3, h4, _⟩ := h.nodeAt ht ho ht' ho' hi hl
    exact .inr ⟨hd, .inr ⟨j, π, fun hh => i0 (h4.1 hh), h2, hp⟩⟩

theorem Alike.installed (h : Alike g g') (ht : FolderTree g) (ho : g.Ord) (ht' : FolderTree g') (ho' : g'.Ord) {t : Hoisted.Tree}
    (hi : Hoisted.Installed pk g t) : Hoisted.Installed pk g' t := fun p hp e =>
  (hi p hp e).trans ⟨h.expected ht ho ht' ho', h.symm.expected ht' ho' ht ho⟩

theorem Alike.installable (h : Alike g g') (hi : Hoisted.Installable pk g) (ht' : FolderTree g') (ho' : g'.Ord) : Hoisted.Installable pk g' := by
  have key : ∀ (j : Nat) (nd' : Node Str P S), j ≠ 0 → g'.nodes[j]? = some nd' → ∃ i nd, i ≠ 0 ∧ g.nodes[i]? = some nd ∧ nd.pkg = nd'.pkg ∧ nd.name = nd'.name := by
    intro j nd' j0 hj
    obtain ⟨i, nd, h1, _, h3, h4, h5⟩ := h.symm.node ht' ho' hi.tree hi.order hj
    exact ⟨i, nd, fun hh => j0 (h4.1 hh), h1, h3, h5 j0⟩
  refine ⟨ht', ho', ?_, ?_, ?_⟩
  · intro j nd' j0 hj
    obtain ⟨i, nd, i0, h1, _, h3⟩ := key j nd' j0 hj
    rw [← h3]; exact hi.names i nd i0 h1
  · intro j nd' j0 hj
    obtain ⟨i, nd, i0, h1, h2, _⟩ := key j nd' j0 hj
    rw [← h2]; exact hi.dirs i nd i0 h1
  · intro j nd' r j0 hj
    obtain ⟨i, nd, i0, h1, h2, _⟩ := key j nd' j0 hj
    rw [← h2]; exact hi.bundled i nd r i0 h1

/-! ### isolated -/

variable {v : Iso.Env}

theorem nm_home {i j : Nat} (h : j = 0 ↔ i = 0) (hh : Iso.home v g' j = Iso.home v g i) : Iso.nm v g' j = Iso.nm v g i := by
  unfold Iso.nm
  by_cases i0 : i = 0
  · rw [if_pos i0, if_pos (h.2 i0)]
  · rw [if_neg i0, if_neg (fun hj => i0 (h.1 hj)), hh]

theorem Alike.home (h : Alike g g') (ht : FolderTree g) (ho : g.Ord) (ht' : FolderTree g') (ho' : g'.Ord) {i : Nat} {nd : Node Str P S}
    (hi : g.nodes[i]? = some nd) (i0 : i ≠ 0) : ∃ j nd', g'.nodes[j]? = some nd' ∧ j ≠ 0 ∧ nd'.pkg = nd.pkg ∧ nd'.name = nd.name ∧
      g'.nodePath j = g.nodePath i ∧ Iso.home v g' j = Iso.home v g i := by
  obtain ⟨j, nd', h1, h2, h3, h4, h5⟩ := h.node ht ho ht' ho' hi
  refine ⟨j, nd', h1, fun hh => i0 (h4.1 hh), h3, h5 i0, h2, ?_⟩
  have hn : Iso.nameOf g' j = Iso.nameOf g i := by simp [Iso.nameOf, h1, hi, h5 i0]
  unfold Iso.home Iso.dirName
  rw [h2, hn]

/-- the same link in the other tree -/
theorem Alike.edge (h : Alike g g') (ht : FolderTree g) (ho : g.Ord) (ht' : FolderTree g') (ho' : g'.Ord) {a : Edge S} (ha : a ∈ g.edges)
    {sn dn : Node Str P S} (hs : g.nodes[a.src]? = some sn) (hd : g.nodes[a.dst]? = some dn) (d0 : a.dst ≠ 0) :
    ∃ b ∈ g'.edges, (∃ nd, g'.nodes[b.src]? = some nd) ∧ b.dst ≠ 0 ∧ (∃ nd, g'.nodes[b.dst]? = some nd) ∧ Iso.nm v g' b.src = Iso.nm v g a.src ∧
      Iso.home v g' b.dst = Iso.home v g a.dst ∧ Iso.nameOf g' b.dst = Iso.nameOf g a.dst ∧ Iso.entryFor v g' b.src b.dst = Iso.entryFor v g a.src a.dst := by
  have h1 := (locatedAt_iff (i := a.src) (π := g.nodePath a.src) ht ho).2 ⟨⟨sn, hs⟩, rfl⟩
  have h2 := (locatedAt_iff (i := a.dst) (π := g.nodePath a.dst) ht ho).2 ⟨⟨dn, hd⟩, rfl⟩
  obtain ⟨b, hb, b1, b2⟩ := (h.links _ _).1 ⟨a, ha, h1, h2⟩
  obtain ⟨j, jn, j1, j2, _, j4, j5⟩ := h.node ht ho ht' ho' hs
  obtain ⟨k, kn, k1, k2, _, k4, k5⟩ := h.node ht ho ht' ho' hd
  have e1 : b.src = j := locatedAt_inj ht' b1 ((locatedAt_iff ht' ho').2 ⟨⟨_, j1⟩, j2⟩)
  have e2 : b.dst = k := locatedAt_inj ht' b2 ((locatedAt_iff ht' ho').2 ⟨⟨_, k1⟩, k2⟩)
  have hn : Iso.nameOf g' b.dst = Iso.nameOf g a.dst := by simp [Iso.nameOf, e2, k1, hd, k5 d0]
  have hh : Iso.home v g' b.dst = Iso.home v g a.dst := by
    unfold Iso.home Iso.dirName
    rw [hn, e2, k2]
  have hnm : Iso.nm v g' b.src = Iso.nm v g a.src := by
    by_cases s0 : a.src = 0
    · unfold Iso.nm
      rw [if_pos s0, if_pos (e1.trans (j4.2 s0))]
    · refine nm_home (by rw [e1]; exact j4) ?_
      have : Iso.nameOf g' b.src = Iso.nameOf g a.src := by simp [Iso.nameOf, e1, j1, hs, j5 s0]
      unfold Iso.home Iso.dirName
      rw [this, e1, j2]
  refine ⟨b, hb, ⟨jn, by rw [e1]; exact j1⟩, fun hb0 => d0 (k4.1 (e2 ▸ hb0)), ⟨kn, by rw [e2]; exact k1⟩, hnm, hh, hn, ?_⟩
  unfold Iso.entryFor
  rw [hnm, hn]

theorem Alike.expected_iso (h : Alike g g') (hi : Iso.Installable pk v g) (ht' : FolderTree g') (ho' : g'.Ord) {p : Loc} {e : Hoisted.Entry}
    (he : Iso.Expected pk v g p e) : Iso.Expected pk v g' p e := by
  rcases he with he | ⟨i, nd, i0, hn, hx⟩ | ⟨a, ha, ⟨sn, hs⟩, hx⟩
  · exact .inl he
  · obtain ⟨j, nd', h1, h2, h3, _, _, h6⟩ := h.home (v := v) hi.tree hi.order ht' ho' hn i0
    exact .inr (.inl ⟨j, nd', h2, h1, by rw [h3, h6]; exact hx⟩)
  · obtain ⟨d0, dn, hd⟩ := hi.known a ha
    obtain ⟨b, hb, h1, _, _, h2, h3, h4, h5⟩ := h.edge (v := v) hi.tree hi.order ht' ho' ha hs hd d0
    exact .inr (.inr ⟨b, hb, h1, by rw [h5, h3]; exact hx⟩)

/-- what Iso.Installable asks of the links -/
structure Links (g : Graph Str P S) : Prop where
  known : ∀ e ∈ g.edges, e.dst ≠ 0 ∧ ∃ nd, g.nodes[e.dst]? = some nd
  sources : ∀ e ∈ g.edges, ∃ nd, g.nodes[e.src]? = some nd
  single : ∀ i, ((Iso.depsOf g i).map (Iso.nameOf g)).Nodup

theorem Alike.installable_iso (h : Alike g g') (hi : Iso.Installable pk v g) (ht' : FolderTree g') (ho' : g'.Ord) (hk : Links g') :
    Iso.Installable pk v g' := by
  have key : ∀ (j : Nat) (nd' : Node Str P S), j ≠ 0 → g'.nodes[j]? = some nd' → ∃ i nd, i ≠ 0 ∧ g.nodes[i]? = some nd ∧ nd.pkg = nd'.pkg ∧ nd.name = nd'.name ∧
      g.nodePath i = g'.nodePath j := by
    intro j nd' j0 hj
    obtain ⟨i, nd, h1, h2, h3, h4, h5⟩ := h.symm.node ht' ho' hi.tree hi.order hj
    exact ⟨i, nd, fun hh => j0 (h4.1 hh), h1, h3, h5 j0, h2⟩
  refine ⟨ht', ho', ?_, ?_, ?_, ?_, ?_, ?_, ?_, hk.known, hk.sources, hk.single, hi.absolute, hi.digits, ?_⟩
  · intro j nd' j0 hj
    obtain ⟨i, nd, i0, h1, _, h3, _⟩ := key j nd' j0 hj
    rw [← h3]; exact hi.names i nd i0 h1
  · intro j nd' j0 hj
    obtain ⟨i, nd, i0, h1, _, h3, _⟩ := key j nd' j0 hj
    rw [← h3]; exact hi.plain i nd i0 h1
  · intro j nd' a b j0 hj
    obtain ⟨i, nd, i0, h1, h2, _⟩ := key j nd' j0 hj
    rw [← h2]; exact hi.folders i nd a b i0 h1
  · intro j nd' j0 hj
    obtain ⟨i, nd, i0, h1, h2, _⟩ := key j nd' j0 hj
    rw [← h2]; exact hi.dirs i nd i0 h1
  · intro j nd' r j0 hj
    obtain ⟨i, nd, i0, h1, h2, _⟩ := key j nd' j0 hj
    rw [← h2]; exact hi.bundled i nd r i0 h1
  · intro j nd' j0 hj
    obtain ⟨i, nd, i0, h1, _, h3, _⟩ := key j nd' j0 hj
    rw [← h3]; exact hi.noBin i nd i0 h1
  · intro j nd' r text j0 hj
    obtain ⟨i, nd, i0, h1, h2, _⟩ := key j nd' j0 hj
    rw [← h2]; exact hi.noLinks i nd r text i0 h1
  · intro j k nd' nd'' j0 k0 hj hk hnn hh
    obtain ⟨i, a, i0, h1, _, h3, h4⟩ := key j nd' j0 hj
    obtain ⟨l, b, l0, g1, _, g3, g4⟩ := key k nd'' k0 hk
    have : i = l := hi.apart i l a b i0 l0 h1 g1 (by rw [h3, g3]; exact hnn) (by rw [h4, g4]; exact hh)
    subst this
    have hp : g'.nodePath j = g'.nodePath k := h4.symm.trans g4
    exact locatedAt_inj ht' ((locatedAt_iff ht' ho').2 ⟨⟨_, hj⟩, hp⟩) ((locatedAt_iff ht' ho').2 ⟨⟨_, hk⟩, rfl⟩)

theorem Alike.installed_iso (h : Alike g g') (hi : Iso.Installable pk v g) (hi' : Iso.Installable pk v g') {t : Hoisted.Tree}
    (hx : Iso.Installed pk v g t) : Iso.Installed pk v g' t := fun p hp e =>
  (hx p hp e).trans ⟨h.expected_iso hi hi'.tree hi'.order, h.symm.expected_iso hi' hi.tree hi.order⟩

end disk

end Again
end Oro
