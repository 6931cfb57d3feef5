import Verif.Proofs.Works
import Verif.Proofs.Folder
import Verif.Props.Agree
import Verif.Props.Named
import Verif.Props.IsolatedBins
/-
C80: after an install, the project works: everything it requires, directly or through others, is found on disk and is what is
asked for. Resolver (C01-C07), linkers (C33, C46) and Node's lookup together.
-/

set_option linter.unusedSectionVars false

namespace Oro
namespace Works
open Hoisted (Entry Tree Pkgs Disk binName storeName metaName InstName)

variable {P S : Type} [DecidableEq S] {env : Env Str P S} {lock : Option (LockTree Str P)} {root : Node Str P S} {s : RState Str P S}
  {nm : Str} {p0 : P} {m : Manifest Str} {pk : Pkgs P} {v : Iso.Env} {t : Tree}

theorem reqFold_parses {parse : Str → Str → Option S} (l : List ((Str × Str) × DepType)) : ∀ {acc r : IMap Str (S × DepType)},
    reqFold parse (some acc) l = some r → ∀ d ∈ l, ∃ spec, parse d.1.1 d.1.2 = some spec := by
  induction l with
  | nil => intro _ _ _ d hd; cases hd
  | cons a l ih =>
    intro acc r h d hd
    simp only [reqFold, List.foldl_cons] at h
    cases hp : parse a.1.1 a.1.2 with
    | none => rw [hp] at h; rw [show l.foldl _ none = reqFold parse none l from rfl, reqFold_none] at h; cases h
    | some spec =>
      rw [hp] at h
      rcases List.mem_cons.1 hd with rfl | hd
      · exact ⟨spec, hp⟩
      · exact ih h d hd

theorem mkReqs_parses {parse : Str → Str → Option S} {m : Manifest Str} {b : Bool} {r : IMap Str (S × DepType)} (h : mkReqs parse m b = some r)
    {n raw : Str} {ty : DepType} (hq : Requires m b n raw ty) : ∃ spec, parse n raw = some spec := by
  have := reqFold_parses (acc := []) _ h
  rcases hq with ⟨_, hb, hm⟩ | ⟨_, hm, _⟩ | ⟨_, hm, _⟩
  · refine this ((n, raw), .dev) ?_
    rw [hb]
    exact List.mem_append_right _ (List.mem_map_of_mem (f := fun d => (d, DepType.dev)) hm)
  · exact this ((n, raw), .opt) (List.mem_append_left _ (List.mem_append_right _ (List.mem_map_of_mem (f := fun d => (d, DepType.opt)) hm)))
  · exact this ((n, raw), .prod) (List.mem_append_left _ (List.mem_append_left _ (List.mem_map_of_mem (f := fun d => (d, DepType.prod)) hm)))

/-- the manifest a package of the tree was made from -/
def MadeFrom (env : Env Str P S) (lock : Option (LockTree Str P)) (m : Manifest Str) (g : Graph Str P S) (i : Nat) (mi : Manifest Str) : Prop :=
  ∃ nd, g.nodes[i]? = some nd ∧ mkReqs env.parse mi (decide (i = 0)) = some nd.reqs ∧ (i = 0 → mi = m) ∧ (i ≠ 0 → KnownPackage env lock nd.pkg mi)

theorem madeFrom_ex (hr : Node.new env.parse nm p0 m true = some root) (h : RReach env lock root s) {i : Nat} {nd : Node Str P S}
    (hi : s.graph.nodes[i]? = some nd) : ∃ mi, MadeFrom env lock m s.graph i mi := by
  have hr' : IsRoot env root := ⟨nm, p0, m, hr⟩
  by_cases h0 : i = 0
  · subst h0
    obtain ⟨x, h1, h2, _⟩ := h.root_reqs hr'
    exact ⟨m, x, h1, by rw [h2]; exact (nodeNew_spec hr).2.2.2.2.2, fun _ => rfl, fun h => absurd rfl h⟩
  · obtain ⟨mi, k1, k2⟩ := h.prov hr' i nd hi h0
    exact ⟨mi, nd, hi, by simpa [h0] using k2, fun h => absurd h h0, fun _ => k1⟩

theorem MadeFrom.proper (hp : Plain env lock m pk) {i : Nat} {mi : Manifest Str} {g : Graph Str P S} (h : MadeFrom env lock m g i mi) : mi.Proper := by
  obtain ⟨nd, _, _, h1, h2⟩ := h
  by_cases h0 : i = 0
  · rw [h1 h0]; exact hp.project.1
  · exact (hp.packages _ _ (h2 h0)).1

theorem MadeFrom.plain (hp : Plain env lock m pk) {i : Nat} {mi : Manifest Str} {g : Graph Str P S} (h : MadeFrom env lock m g i mi) {n raw : Str} {ty : DepType}
    (hq : Requires mi (decide (i = 0)) n raw ty) : PlainName n := by
  obtain ⟨nd, _, _, h1, h2⟩ := h
  by_cases h0 : i = 0
  · subst h0
    rw [h1 rfl] at hq
    exact hp.project.2 n raw ty hq
  · simp only [h0, decide_false] at hq
    exact (hp.packages _ _ (h2 h0)).2.1 n raw ty hq

/-- what the manifest requires is declared in the tree -/
theorem MadeFrom.declares (hp : Plain env lock m pk) {i : Nat} {mi : Manifest Str} {g : Graph Str P S} (h : MadeFrom env lock m g i mi) {n raw : Str} {ty : DepType}
    (hq : Requires mi (decide (i = 0)) n raw ty) : ∃ spec, env.parse n raw = some spec ∧ Declares g i n spec ty := by
  have hpr := h.proper hp
  obtain ⟨nd, hi, hm, _, _⟩ := h
  obtain ⟨spec, hs⟩ := mkReqs_parses hm hq
  exact ⟨spec, hs, nd, hi, (mkReqs_spec hpr hm n spec ty).2 ⟨raw, hq, hs⟩⟩

/-- the packages of a resolved tree have plain names -/
theorem plain_names (hr : Node.new env.parse nm p0 m true = some root) (h : RReach env lock root s) (hp : Plain env lock m pk) {i : Nat}
    {nd : Node Str P S} (h0 : i ≠ 0) (hi : s.graph.nodes[i]? = some nd) : PlainName nd.name := by
  have hg := (h.sinv ⟨nm, p0, m, hr⟩).pinv.ginv
  obtain ⟨p, pn, _, _, hpn, hc⟩ := hg.par i nd hi h0
  obtain ⟨e, he, hd, _⟩ := hg.hasUser p nd.name i (by unfold Graph.child?; rw [hpn]; exact hc)
  obtain ⟨k, hk⟩ := List.mem_iff_getElem?.1 he
  obtain ⟨sn, dn, h1, h2, _, h4⟩ := hg.edgeReg k e hk
  rw [hd, hi] at h2
  cases h2
  obtain ⟨mi, hmi⟩ := madeFrom_ex hr h h1
  have hpl : ∀ raw ty, Requires mi (decide (e.src = 0)) nd.name raw ty → PlainName nd.name := fun raw ty hq => hmi.plain hp hq
  have hpr := hmi.proper hp
  obtain ⟨sn', h1', hm, _, _⟩ := hmi
  rw [h1] at h1'
  cases h1'
  obtain ⟨raw, hq, _⟩ := (mkReqs_spec hpr hm _ _ _).1 h4
  exact hpl _ _ hq

theorem known_of (hr : Node.new env.parse nm p0 m true = some root) (h : RReach env lock root s) {i : Nat}
    {nd : Node Str P S} (h0 : i ≠ 0) (hi : s.graph.nodes[i]? = some nd) : ∃ mi, KnownPackage env lock nd.pkg mi := by
  obtain ⟨mi, k1, _⟩ := h.prov ⟨nm, p0, m, hr⟩ i nd hi h0
  exact ⟨mi, k1⟩

/-- a tree made by the resolver can be installed by the hoisted linker -/
theorem installable (hr : Node.new env.parse nm p0 m true = some root) (h : RReach env lock root s) (hp : Plain env lock m pk) :
    Hoisted.Installable pk s.graph := by
  have hg := (h.sinv ⟨nm, p0, m, hr⟩).pinv.ginv
  refine ⟨hg.folderTree, fun i nd p hi hpp => hg.ord i nd p hi hpp, ?_, ?_, ?_⟩
  · intro i nd h0 hi
    obtain ⟨h1, h2, h3, h4, h5, _⟩ := plain_names hr h hp h0 hi
    exact ⟨h1, h2, h3, h4, h5⟩
  · intro i nd h0 hi
    obtain ⟨mi, hk⟩ := known_of hr h h0 hi
    exact (hp.packages _ _ hk).2.2.1
  · intro i nd r h0 hi
    obtain ⟨mi, hk⟩ := known_of hr h h0 hi
    exact (hp.packages _ _ hk).2.2.2 r

theorem place_eq_nil {g : Graph Str P S} (hg : Hoisted.Installable pk g) {i : Nat} {π : List Str} (hl : LocatedAt g i π) : place π = [] ↔ i = 0 := by
  constructor
  · intro h
    by_cases h0 : i = 0
    · exact h0
    · exfalso
      obtain ⟨σ, nd, _, rfl⟩ := Hoisted.located_snoc hl h0
      have hn := (Hoisted.located_inst hg hl nd.name (by simp)).1
      have := Hoisted.segs_ne_nil hn
      by_cases hσ : σ = []
      · subst hσ; rw [List.nil_append, place_snoc_nil] at h; exact this h
      · rw [place_snoc hσ] at h; simp at h
  · rintro rfl
    cases hl with
    | root _ => rfl
    | inside h1 h2 _ =>
      obtain ⟨_, h3, h4⟩ := hg.tree.root
      rw [h1] at h3; cases h3; rw [h2] at h4; cases h4

/-- C80, hoisted: if in the resolved tree links lead to what is loaded (C01), the project works wherever the tree is installed. -/
theorem C80_installed (hr : Node.new env.parse nm p0 m true = some root) (h : RReach env lock root s) (hd : s.done = true)
    (hl : LinksLoad s.graph) (hp : Plain env lock m pk) (ht : Hoisted.Installed pk s.graph t) : ProjectWorks env lock pk v t m := by
  have hr' : IsRoot env root := ⟨nm, p0, m, hr⟩
  have hg := installable hr h hp
  refine ⟨fun p mp => ∃ i π, LocatedAt s.graph i π ∧ p = place π ∧ MadeFrom env lock m s.graph i mp, ?_, ?_⟩
  · obtain ⟨nd, h1, _⟩ := hg.tree.root
    obtain ⟨mi, hmi⟩ := madeFrom_ex hr h h1
    have e : mi = m := by obtain ⟨_, _, _, h2, _⟩ := hmi; exact h2 rfl
    subst e
    exact ⟨0, [], .root h1, rfl, hmi⟩
  · rintro p mp ⟨i, π, hloc, rfl, hmi⟩ n raw ty hq
    have e : decide (place π = []) = decide (i = 0) := by rw [decide_eq_decide]; exact place_eq_nil hg hloc
    rw [e] at hq
    obtain ⟨hn1, hn2, hn3, hn4, hn5, _⟩ := hmi.plain hp hq
    obtain ⟨spec, hs, hdec⟩ := hmi.declares hp hq
    obtain ⟨ed, hlink, _, hspec, _⟩ := (C04_all_linked hr' h hd).1 i n spec ty hdec
    obtain ⟨ρ, h1, h2⟩ := finds_loads (v := v) hg ht ⟨hn1, hn2, hn3, hn4, hn5⟩ (hl i n ed hlink) hloc
    obtain ⟨dn, hdn⟩ := Hoisted.located_exists h1
    have h0 : ed.dst ≠ 0 := by
      intro h0
      have := (place_eq_nil hg h1).2 h0
      have hne := place_ne (π := ρ ++ [n]) (by simp)
      rw [this, Hoisted.folder_append] at hne
      have := congrArg List.length hne
      simp [folder] at this
      have hs := Hoisted.segs_ne_nil hn1
      rcases hx : nameSegs n with _ | ⟨a, l⟩
      · exact hs hx
      · rw [hx] at this; simp at this; omega
    obtain ⟨dn', hdn', hsat⟩ := C05_links_sound hr' h ed (by obtain ⟨_, k, _, _, hk⟩ := hlink; exact List.mem_of_getElem? hk)
    rw [hdn] at hdn'
    cases hdn'
    obtain ⟨mx, hmx⟩ := madeFrom_ex hr h hdn
    have hkn : KnownPackage env lock dn.pkg mx := by
      obtain ⟨y, h3, _, _, h4⟩ := hmx
      rw [hdn] at h3; cases h3
      exact h4 h0
    refine ⟨spec, place (ρ ++ [n]), dn.pkg, mx, hs, h2, fun hh => h0 ((place_eq_nil hg h1).1 hh), holds hg ht h0 hdn h1, ?_, hkn, ed.dst, _, h1, rfl, hmx⟩
    rw [hspec] at hsat
    exact hsat

/-- C80, partially (hoisted): after a first install the project works, if the responses came in an order that answers a package's
requirements before packages inside it are started on. -/
theorem C80_first_partial {V I : Type} [DecidableEq V] [DecidableEq I] (hr : Node.new env.parse nm p0 m true = some root)
    (h : OrderlyReach env lock root s) (hd : s.done = true) (hp : Plain env lock m pk) (lv : LockView P S V I) (d : Disk V I) (hf : Hoisted.Fresh d) :
    ∃ r, Hoisted.applyTree pk lv s.graph d = some r ∧ ProjectWorks env lock pk v r.1.tree m := by
  obtain ⟨r, h1, h2, _⟩ := Hoisted.C33_fresh pk lv s.graph (installable hr h.toReach hp) d hf
  exact ⟨r, h1, C80_installed hr h.toReach hd (C01_orderly_partial ⟨nm, p0, m, hr⟩ h).1 hp h2⟩

/-- C80 (hoisted), for projects without version conflicts: after a first install the project works, whatever the order of
responses; and resolving cannot fail. -/
theorem C80_agreed {V I : Type} [DecidableEq V] [DecidableEq I] {w : Str → P × Manifest Str} (hr : Node.new env.parse nm p0 m true = some root)
    (ha : Agreed env lock m w) (h : RReach env lock root s) (hd : s.done = true) (hp : Plain env lock m pk) (lv : LockView P S V I) (d : Disk V I)
    (hf : Hoisted.Fresh d) :
    ∃ r, Hoisted.applyTree pk lv s.graph d = some r ∧ ProjectWorks env lock pk v r.1.tree m := by
  obtain ⟨r, h1, h2, _⟩ := Hoisted.C33_fresh pk lv s.graph (installable hr h hp) d hf
  exact ⟨r, h1, C80_installed hr h hd (C76_flat hr hp.project.1 ha h).2.2.2.2.2 hp h2⟩

/-! ### isolated -/

theorem dst_ne_zero (hr : IsRoot env root) (h : RReach env lock root s) : ∀ e ∈ s.graph.edges, e.dst ≠ 0 := by
  refine h.graph_ind hr (I := fun g => ∀ e ∈ g.edges, e.dst ≠ 0) (fun e he => (by cases he)) ?_
  intro g g' hi hI hs e he
  cases hs with
  | link d hpre hsd =>
    obtain ⟨h1, h2, xn, h3, _⟩ := satisfy_some hsd
    subst h1
    rw [linkAt_edges] at he
    rcases List.mem_append.mp he with he | he
    · exact hI e he
    · cases List.mem_singleton.mp he
      exact (child_ne_zero hi h2 h3).1
  | place d hpre hsd hsrc hrr =>
    obtain ⟨nd, t, hnn, ht, h1, _, _⟩ := placeChild_eq hi hpre hsd hrr
    rw [h1, placeAt_edges] at he
    rcases List.mem_append.mp he with he | he
    · exact hI e he
    · cases List.mem_singleton.mp he
      obtain ⟨nd, h2, _⟩ := hi.root
      have := lt_of_get h2
      show g.nodes.length ≠ 0
      omega

theorem single_names {g : Graph Str P S} (hg : GInv env g) (i : Nat) : ((Iso.depsOf g i).map (Iso.nameOf g)).Nodup := by
  unfold Iso.depsOf
  rw [List.map_map, List.Nodup, List.pairwise_map, List.pairwise_filter, List.pairwise_iff_getElem]
  intro k l hk hl hkl hs1 hs2 hne
  simp only [decide_eq_true_eq] at hs1 hs2
  obtain ⟨sn, dn, h1, h2, h3, _⟩ := hg.edgeReg k _ (List.getElem?_eq_getElem hk)
  obtain ⟨sn', dn', h1', h2', h3', _⟩ := hg.edgeReg l _ (List.getElem?_eq_getElem hl)
  rw [hs1] at h1
  rw [hs2, h1] at h1'
  cases h1'
  simp only [Function.comp_apply, Iso.nameOf, h2, h2', Option.map_some, Option.getD_some] at hne
  rw [hne, h3'] at h3
  cases h3
  omega

/-- a tree made by the resolver can be installed by the isolated linker -/
theorem installable_store (hr : Node.new env.parse nm p0 m true = some root) (h : RReach env lock root s) (hp : Plain env lock m pk)
    (hps : PlainStore env lock pk v s.graph) : Iso.Installable pk v s.graph := by
  have hr' : IsRoot env root := ⟨nm, p0, m, hr⟩
  have hg := (h.sinv hr').pinv.ginv
  have hh := installable hr h hp
  have hloc : ∀ (i : Nat) (nd : Node Str P S), i ≠ 0 → s.graph.nodes[i]? = some nd →
      LocatedAt s.graph i (s.graph.nodePath i) ∧ s.graph.nodePath i ≠ [] := by
    intro i nd h0 hi
    have h1 := (locatedAt_iff (i := i) (π := s.graph.nodePath i) hg.folderTree hg.ord).2 ⟨⟨nd, hi⟩, rfl⟩
    refine ⟨h1, fun h => ?_⟩
    obtain ⟨σ, _, _, h2⟩ := Hoisted.located_snoc h1 h0
    rw [h] at h2
    simp at h2
  refine ⟨hg.folderTree, fun i nd p hi hpp => hg.ord i nd p hi hpp, ?_, ?_, ?_, hh.dirs, hh.bundled, ?_, ?_, ?_, ?_, single_names hg, hps.absolute,
    hps.digits, ?_⟩
  · intro i nd h0 hi
    obtain ⟨h1, _, h3, _⟩ := plain_names hr h hp h0 hi
    exact ⟨h1, h3⟩
  · intro i nd h0 hi
    exact (plain_names hr h hp h0 hi).2.2.2.2.2
  · intro i nd a b h0 hi hb hc
    obtain ⟨mi, hk⟩ := known_of hr h h0 hi
    exact hps.folders _ _ a b hk hb hc
  · intro i nd h0 hi
    exact (plain_names hr h hp h0 hi).2.1
  · intro i nd r text h0 hi
    obtain ⟨mi, hk⟩ := known_of hr h h0 hi
    exact hps.noLinks _ _ r text hk
  · intro e he
    obtain ⟨k, hk⟩ := List.mem_iff_getElem?.1 he
    obtain ⟨_, dn, _, h2, _⟩ := hg.edgeReg k e hk
    exact ⟨dst_ne_zero hr' h e he, dn, h2⟩
  · intro e he
    obtain ⟨k, hk⟩ := List.mem_iff_getElem?.1 he
    obtain ⟨sn, _, h1, _⟩ := hg.edgeReg k e hk
    exact ⟨sn, h1⟩
  · intro i j nd nd' i0 j0 hi hj _ hh
    obtain ⟨h1, h2⟩ := hloc i nd i0 hi
    obtain ⟨h3, h4⟩ := hloc j nd' j0 hj
    exact hps.apart i j _ _ h2 h4 h1 h3 hh

theorem nmWord_segs {n : Str} (h : PlainName n) : nmWord ∉ nameSegs n := by
  obtain ⟨h1, _, _, _, h2, _⟩ := h
  rcases h1 with ⟨a, b, c, d, e⟩ | ⟨s, t, rfl, hs, ht, _⟩
  · unfold nameSegs
    rw [splitChar_one a]
    simpa using fun h => c h.symm
  · have h3 := h2 s
    unfold nameSegs
    have hs' : '/' ∉ '@' :: s := by simpa using hs
    rw [show '@' :: s ++ '/' :: t = ('@' :: s) ++ '/' :: t from rfl, Hoisted.splitChar_append, splitChar_one hs', splitChar_one ht]
    intro hh
    simp only [List.singleton_append, List.mem_cons, List.not_mem_nil, or_false] at hh
    rcases hh with hh | hh
    · simp [nmWord] at hh
    · exact h3 (by rw [hh])

/-- C80, isolated: wherever a resolved tree is installed by the isolated linker, the project works, whatever the order of responses. -/
theorem C80_store (hr : Node.new env.parse nm p0 m true = some root) (h : RReach env lock root s) (hd : s.done = true)
    (hp : Plain env lock m pk) (hps : PlainStore env lock pk v s.graph) (ht : Iso.Installed pk v s.graph t) : ProjectWorks env lock pk v t m := by
  have hr' : IsRoot env root := ⟨nm, p0, m, hr⟩
  have hg := installable_store hr h hp hps
  have hgi := (h.sinv hr').pinv.ginv
  refine ⟨fun p mp => ∃ i, MadeFrom env lock m s.graph i mp ∧ p = if i = 0 then [] else Iso.home v s.graph i, ?_, ?_⟩
  · obtain ⟨nd, h1, _⟩ := hg.tree.root
    obtain ⟨mi, hmi⟩ := madeFrom_ex hr h h1
    have e : mi = m := by obtain ⟨_, _, _, h2, _⟩ := hmi; exact h2 rfl
    subst e
    exact ⟨0, hmi, rfl⟩
  · rintro p mp ⟨i, hmi, hpi⟩ n raw ty hq
    have e : decide (p = []) = decide (i = 0) := by
      rw [decide_eq_decide, hpi]
      split
      · simp [*]
      · simp [*, Iso.home_ne_nil]
    rw [e] at hq
    obtain ⟨hn1, hn2, hn3, _⟩ := hmi.plain hp hq
    obtain ⟨spec, hs, hdec⟩ := hmi.declares hp hq
    obtain ⟨ed, hlink, hsrc, hspec, _⟩ := (C04_all_linked hr' h hd).1 i n spec ty hdec
    obtain ⟨sn, k, hsn, hdk, hek⟩ := hlink
    have hmem := List.mem_of_getElem? hek
    have h0 := dst_ne_zero hr' h ed hmem
    obtain ⟨dn, hdn, hsat⟩ := C05_links_sound hr' h ed hmem
    have hnn : dn.name = n := by
      obtain ⟨e', dn', h1, _, h2, h3⟩ := hgi.depReg i sn n k hsn hdk
      rw [hek] at h1
      cases h1
      rw [hdn] at h2
      cases h2
      exact h3
    have hj : ed.dst ∈ Iso.depsOf s.graph i := by
      unfold Iso.depsOf
      exact List.mem_map.2 ⟨ed, List.mem_filter.2 ⟨hmem, by simpa using hsrc⟩, rfl⟩
    have hname : Iso.nameOf s.graph ed.dst = n := by simp [Iso.nameOf, hdn, hnn]
    have hf : Iso.finds v t p n = some (Iso.home v s.graph ed.dst) := by
      rw [hpi]
      split
      · rename_i hi0
        subst hi0
        exact (Iso.C46_project_sees pk v s.graph hg t ht n hn1 hn3 hn2).1 _ hj hname
      · rename_i hi0
        exact (Iso.C46_sees pk v s.graph hg t ht i sn hi0 hsn (nmWord_segs (plain_names hr h hp hi0 hsn)) n hn1 hn3 hn2).1 _ hj hname
    obtain ⟨mx, hmx⟩ := madeFrom_ex hr h hdn
    have hkn : KnownPackage env lock dn.pkg mx := by
      obtain ⟨y, h3, _, _, h4⟩ := hmx
      rw [hdn] at h3; cases h3
      exact h4 h0
    have hdir := (Iso.C46_link_resolves pk v s.graph hg t ht i _ sn hsn hj).2
    refine ⟨spec, _, dn.pkg, mx, hs, hf, Iso.home_ne_nil _ _ _, ⟨hdir, ?_⟩, ?_, hkn, ed.dst, hmx, by rw [if_neg h0]⟩
    · intro r hr
      by_cases hr0 : r = []
      · subst hr0
        rw [List.append_nil, hdir, hg.dirs _ _ h0 hdn]
      · exact Iso.at_home hg ht h0 hdn hr0 (fun hh => hr (List.mem_of_mem_head? hh))
    · rw [hspec] at hsat
      exact hsat

/-- C80 (isolated): after a first install the project works, whatever the order of responses and the order in which packages
are done. -/
theorem C80_isolated {V I : Type} (hr : Node.new env.parse nm p0 m true = some root) (h : RReach env lock root s) (hd : s.done = true)
    (hp : Plain env lock m pk) (hps : PlainStore env lock pk v s.graph) (d : Disk V I) (hf : Iso.Fresh d) (order : List Nat)
    (ho : Iso.Order s.graph order) :
    ∃ y, Iso.install pk v s.graph order d = some y ∧ ProjectWorks env lock pk v y.tree m := by
  obtain ⟨y, h1, h2⟩ := Iso.C46_fresh pk v s.graph (installable_store hr h hp hps) d hf order ho
  exact ⟨y, h1, C80_store hr h hd hp hps (Iso.installed_of_exact h2)⟩

/-- C80 (isolated): and still does when the commands are there. -/
theorem C80_isolated_commands {V I : Type} (hr : Node.new env.parse nm p0 m true = some root) (h : RReach env lock root s) (hd : s.done = true)
    (hp : Plain env lock m pk) (hps : PlainStore env lock pk v s.graph) (hc : Iso.PlainCommands pk s.graph) (d : Disk V I) (hf : Iso.Fresh d)
    (order : List Nat) (ho : Iso.Order s.graph order) :
    ∃ z, Iso.apply pk v s.graph order d = some z ∧ ProjectWorks env lock pk v z.1 m := by
  obtain ⟨z, h1, h2, _⟩ := Iso.C35_isolated_partial pk v s.graph (installable_store hr h hp hps) hc d hf order ho
  exact ⟨z, h1, C80_store hr h hd hp hps h2⟩

/-- C80, partially (isolated): and still does after any number of later installs, if each of them is a change the linker gets right
(`Iso.Compatible`, C46) and the last one installed what was resolved. -/
theorem C80_isolated_later_partial {V I : Type} (hr : Node.new env.parse nm p0 m true = some root) (h : RReach env lock root s) (hd : s.done = true)
    (hp : Plain env lock m pk) (hps : PlainStore env lock pk v s.graph) (d : Disk V I) (hh : Iso.History pk v s.graph d) :
    ProjectWorks env lock pk v d.tree m :=
  C80_store hr h hd hp hps (Iso.C46_history_partial pk v s.graph d hh).2

/-- C80, partially (hoisted): after any number of installs whose changes pruning notices (C33), if the last one installed what was resolved
in order. -/
theorem C80_later_partial {V I : Type} [DecidableEq V] [DecidableEq I] (hr : Node.new env.parse nm p0 m true = some root)
    (h : OrderlyReach env lock root s) (hd : s.done = true) (hp : Plain env lock m pk) (lv : LockView P S V I) (d : Disk V I)
    (hh : Hoisted.History pk lv s.graph d) : ProjectWorks env lock pk v d.tree m :=
  C80_installed hr h.toReach hd (C01_orderly_partial ⟨nm, p0, m, hr⟩ h).1 hp (Hoisted.C33_history_partial pk lv s.graph d hh).2.1

end Works
end Oro
