import Verif.Spec.StackWorks
import Verif.Props.Stack
import Verif.Props.Works
/-
C90: from the registry's documents to a node_modules folder that works: C88 and C80 together.
-/

set_option linter.unusedSectionVars false

namespace Oro
namespace Stack
open PSpec Nassun
open Meta (CManifest CDist CVersion CPackument)
open Docs (Bundled Deprecation)
open Hoisted (Tree Pkgs Disk)

variable {V R U I : Type} [DecidableEq V] [DecidableEq R] [DecidableEq U] {k : Sys V R U I} {man : Manifest Str} {nm : Str} {p0 : Resolution V R U I}
  {root : Node Str (Resolution V R U I) (PackageSpec V R U)} {s : RState Str (Resolution V R U I) (PackageSpec V R U)}
  {pk : Pkgs (Resolution V R U I)} {v : Iso.Env} {t : Tree}

/-- what stands in the tree at number `i`: the project, or a version with its entry -/
def Stands (k : Sys V R U I) (man : Manifest Str) (g : Graph Str (Resolution V R U I) (PackageSpec V R U)) (i : Nat) (mi : Manifest Str) : Prop :=
  (i = 0 ∧ mi = man) ∨ (i ≠ 0 ∧ ∃ nd sc m q x cv, g.nodes[i]? = some nd ∧ Sought k man nd.name sc m q ∧ Offers k sc m q x cv ∧
    IsListed k nd.name x cv nd.pkg ∧ mi = sections cv.manifest)

theorem Offers.fn {sc : Option Str} {m : Str} {q q' : Option (VersionSpec V R)} {x : V} {cv cv' : CVersion V Bundled Deprecation}
    (h : Offers k sc m q x cv) (h' : Offers k sc m q' x cv') : cv = cv' := by
  obtain ⟨p, h1, _, h2⟩ := h
  obtain ⟨p', h1', _, h2'⟩ := h'
  have e1 := corgi_iff.2 h1
  rw [corgi_iff.2 h1'] at e1
  cases e1
  rw [h2] at h2'
  cases h2'
  rfl

/-- what a requirement of something in the tree leads to -/
theorem Stands.met (hu : Usual k man) (hE : k.base.spec.alphabetic '/' = false) (hle : TotalLe k.base.world.le)
    (hone : OneName k man) (hm : man.Proper) (hr : Node.new k.env.parse nm p0 man true = some root) (h : RReach k.env none root s)
    (hd : s.done = true) {i : Nat} {mi : Manifest Str} (hs : Stands k man s.graph i mi) {n text : Str} {ty : DepType}
    (hq : Requires mi (decide (i = 0)) n text ty) :
    (∃ sc m q, Asks k.base.spec n text sc m q) ∧ ∀ sc m q, Asks k.base.spec n text sc m q → Sought k man n sc m q ∧ Met k man s.graph i n sc m q := by
  obtain ⟨l1, l2, l3⟩ := C88_links_partial hu hE hle hone hm hr h hd
  rcases hs with ⟨rfl, rfl⟩ | ⟨h0, nd, sc0, m0, q0, x0, cv0, hi, hso, hof, hli, rfl⟩
  · simp only [decide_true] at hq
    exact ⟨l1 n text ty hq, fun sc m q ha => ⟨.project hq.mem_root ha, l2 n text ty sc m q hq ha⟩⟩
  · simp only [h0, decide_false] at hq
    obtain ⟨sc1, m1, q1, x1, cv1, hso1, hof1, hli1, hask, hmet⟩ := l3 i nd hi h0
    obtain ⟨rfl, rfl⟩ := hone _ _ _ _ _ _ _ hso hso1
    obtain ⟨_, _, e, _⟩ := hli
    obtain ⟨_, _, e1, _⟩ := hli1
    rw [e] at e1
    cases e1
    have := hof.fn hof1
    subst this
    exact ⟨hask n text ty hq, fun sc m q ha => ⟨.package hso hof hq.mem_other ha, hmet n text ty sc m q hq ha⟩⟩

theorem plain_name (hu : Usual k man) (hE : k.base.spec.alphabetic '/' = false) (hle : TotalLe k.base.world.le)
    (hr : Node.new k.env.parse nm p0 man true = some root) (h : RReach k.env none root s) (hp : Packed k man pk) (i : Nat)
    (nd : Node Str (Resolution V R U I) (PackageSpec V R U)) (h0 : i ≠ 0) (hi : s.graph.nodes[i]? = some nd) :
    Works.PlainName nd.name ∧ pk.content nd.pkg [] = some .dir ∧ ∀ l, pk.content nd.pkg (nmWord :: l) = none := by
  obtain ⟨sc, m, q, x, cv, h1, h2, h3, _⟩ := C88_packages_partial hu hE hle hr h i nd hi h0
  exact ⟨hp.names _ _ _ _ h1, hp.folder _ _ _ _ _ _ _ h1 h2 h3⟩

theorem installable (hu : Usual k man) (hE : k.base.spec.alphabetic '/' = false) (hle : TotalLe k.base.world.le)
    (hr : Node.new k.env.parse nm p0 man true = some root) (h : RReach k.env none root s) (hp : Packed k man pk) :
    Hoisted.Installable pk s.graph := by
  have hg := (h.sinv ⟨nm, p0, man, hr⟩).pinv.ginv
  refine ⟨hg.folderTree, fun i nd p hi hpp => hg.ord i nd p hi hpp, ?_, ?_, ?_⟩
  · intro i nd h0 hi
    obtain ⟨⟨h1, h2, h3, h4, h5, _⟩, _⟩ := plain_name hu hE hle hr h hp i nd h0 hi
    exact ⟨h1, h2, h3, h4, h5⟩
  · intro i nd h0 hi
    exact (plain_name hu hE hle hr h hp i nd h0 hi).2.1
  · intro i nd r h0 hi
    exact (plain_name hu hE hle hr h hp i nd h0 hi).2.2 r

/-- **C90**, hoisted: wherever the tree that was resolved from the documents is installed, if links lead to what is loaded (C01), the project works by the
documents. -/
theorem C90_installed_partial (hu : Usual k man) (hE : k.base.spec.alphabetic '/' = false) (hle : TotalLe k.base.world.le) (hone : OneName k man)
    (hm : man.Proper) (hr : Node.new k.env.parse nm p0 man true = some root) (h : RReach k.env none root s) (hd : s.done = true)
    (hl : LinksLoad s.graph) (hp : Packed k man pk) (ht : Hoisted.Installed pk s.graph t) : DocumentsWork k man pk v t := by
  have hr' : IsRoot k.env root := ⟨nm, p0, man, hr⟩
  have hg := installable hu hE hle hr h hp
  refine ⟨fun p mp => ∃ i π, LocatedAt s.graph i π ∧ p = Works.place π ∧ Stands k man s.graph i mp, ?_, ?_⟩
  · obtain ⟨nd, h1, _⟩ := hg.tree.root
    exact ⟨0, [], .root h1, rfl, .inl ⟨rfl, rfl⟩⟩
  · rintro p mp ⟨i, π, hloc, rfl, hst⟩ n text ty hq
    have e : decide (Works.place π = []) = decide (i = 0) := by rw [decide_eq_decide]; exact Works.place_eq_nil hg hloc
    rw [e] at hq
    obtain ⟨h1, h2⟩ := hst.met hu hE hle hone hm hr h hd hq
    refine ⟨h1, fun sc m q ha => ?_⟩
    obtain ⟨hso, ed, dn, q', x, cv, hlink, hdn, rfl, hs', ho', hl', hal⟩ := h2 sc m q ha
    obtain ⟨hn1, hn2, hn3, hn4, hn5, _⟩ := hp.names _ _ _ _ hso
    obtain ⟨ρ, h3, h4⟩ := Works.finds_loads (v := v) hg ht ⟨hn1, hn2, hn3, hn4, hn5⟩ (hl i dn.name ed hlink) hloc
    have h0 : ed.dst ≠ 0 := Works.dst_ne_zero hr' h ed (by obtain ⟨_, kk, _, _, hk⟩ := hlink; exact List.mem_of_getElem? hk)
    exact ⟨_, q', x, cv, dn.pkg, h4, fun hh => h0 ((Works.place_eq_nil hg h3).1 hh), ho', hal, hl', Works.holds hg ht h0 hdn h3,
      ed.dst, _, h3, rfl, .inr ⟨h0, dn, sc, m, q', x, cv, hdn, hs', ho', hl', rfl⟩⟩

/-- **C90**, hoisted: after a first install, if the responses came in an order that answers a package's requirements before packages inside it are started
on. -/
theorem C90_first_partial [DecidableEq I] (hu : Usual k man) (hE : k.base.spec.alphabetic '/' = false) (hle : TotalLe k.base.world.le) (hone : OneName k man)
    (hm : man.Proper) (hr : Node.new k.env.parse nm p0 man true = some root) (h : OrderlyReach k.env none root s) (hd : s.done = true)
    (hp : Packed k man pk) (d : Disk V I) (hf : Hoisted.Fresh d) :
    ∃ r, Hoisted.applyTree pk k.view s.graph d = some r ∧ DocumentsWork k man pk v r.1.tree := by
  obtain ⟨r, h1, h2, _⟩ := Hoisted.C33_fresh pk k.view s.graph (installable hu hE hle hr h.toReach hp) d hf
  exact ⟨r, h1, C90_installed_partial hu hE hle hone hm hr h.toReach hd (C01_orderly_partial ⟨nm, p0, man, hr⟩ h).1 hp h2⟩

/-- **C90**, hoisted: after a first install, whatever the order of responses, if no name is in the tree twice. -/
theorem C90_flat_partial [DecidableEq I] (hu : Usual k man) (hE : k.base.spec.alphabetic '/' = false) (hle : TotalLe k.base.world.le) (hone : OneName k man)
    (hm : man.Proper) (hr : Node.new k.env.parse nm p0 man true = some root) (h : RReach k.env none root s) (hd : s.done = true)
    (hflat : ∀ (i j : Nat) (a b : Node Str (Resolution V R U I) (PackageSpec V R U)), i ≠ 0 → j ≠ 0 → s.graph.nodes[i]? = some a →
      s.graph.nodes[j]? = some b → a.name = b.name → i = j)
    (hp : Packed k man pk) (d : Disk V I) (hf : Hoisted.Fresh d) :
    ∃ r, Hoisted.applyTree pk k.view s.graph d = some r ∧ DocumentsWork k man pk v r.1.tree := by
  obtain ⟨r, h1, h2, _⟩ := Hoisted.C33_fresh pk k.view s.graph (installable hu hE hle hr h hp) d hf
  exact ⟨r, h1, C90_installed_partial hu hE hle hone hm hr h hd (h.flat (env' := k.env) ⟨nm, p0, man, hr⟩ hflat).1 hp h2⟩

/-! ### isolated -/

theorem installable_store (hu : Usual k man) (hE : k.base.spec.alphabetic '/' = false) (hle : TotalLe k.base.world.le)
    (hr : Node.new k.env.parse nm p0 man true = some root) (h : RReach k.env none root s) (hp : Packed k man pk)
    (hps : PackedStore k man pk v s.graph) : Iso.Installable pk v s.graph := by
  have hr' : IsRoot k.env root := ⟨nm, p0, man, hr⟩
  have hg := (h.sinv hr').pinv.ginv
  have hh := installable hu hE hle hr h hp
  have hloc : ∀ (i : Nat) (nd : Node Str (Resolution V R U I) (PackageSpec V R U)), i ≠ 0 → s.graph.nodes[i]? = some nd →
      LocatedAt s.graph i (s.graph.nodePath i) ∧ s.graph.nodePath i ≠ [] := by
    intro i nd h0 hi
    have h1 := (locatedAt_iff (i := i) (π := s.graph.nodePath i) hg.folderTree hg.ord).2 ⟨⟨nd, hi⟩, rfl⟩
    refine ⟨h1, fun h => ?_⟩
    obtain ⟨σ, _, _, h2⟩ := Hoisted.located_snoc h1 h0
    rw [h] at h2
    simp at h2
  refine ⟨hg.folderTree, fun i nd p hi hpp => hg.ord i nd p hi hpp, ?_, ?_, ?_, hh.dirs, hh.bundled, ?_, ?_, ?_, ?_, Works.single_names hg, hps.absolute,
    hps.digits, ?_⟩
  · intro i nd h0 hi
    obtain ⟨⟨h1, _, h3, _⟩, _⟩ := plain_name hu hE hle hr h hp i nd h0 hi
    exact ⟨h1, h3⟩
  · intro i nd h0 hi
    exact (plain_name hu hE hle hr h hp i nd h0 hi).1.2.2.2.2.2
  · intro i nd a b h0 hi hb hc
    obtain ⟨sc, m, q, x, cv, h1, h2, h3, _⟩ := C88_packages_partial hu hE hle hr h i nd hi h0
    exact hps.folders _ _ _ _ _ _ _ a b h1 h2 h3 hb hc
  · intro i nd h0 hi
    exact (plain_name hu hE hle hr h hp i nd h0 hi).1.2.1
  · intro i nd r text h0 hi
    obtain ⟨sc, m, q, x, cv, h1, h2, h3, _⟩ := C88_packages_partial hu hE hle hr h i nd hi h0
    exact hps.noLinks _ _ _ _ _ _ _ r text h1 h2 h3
  · intro e he
    obtain ⟨kk, hk⟩ := List.mem_iff_getElem?.1 he
    obtain ⟨_, dn, _, h2, _⟩ := hg.edgeReg kk e hk
    exact ⟨Works.dst_ne_zero hr' h e he, dn, h2⟩
  · intro e he
    obtain ⟨kk, hk⟩ := List.mem_iff_getElem?.1 he
    obtain ⟨sn, _, h1, _⟩ := hg.edgeReg kk e hk
    exact ⟨sn, h1⟩
  · intro i j nd nd' i0 j0 hi hj _ hh
    obtain ⟨h1, h2⟩ := hloc i nd i0 hi
    obtain ⟨h3, h4⟩ := hloc j nd' j0 hj
    exact hps.apart i j _ _ h2 h4 h1 h3 hh

/-- **C90**, isolated: wherever the tree that was resolved from the documents is installed by the isolated linker, the project works by the documents,
whatever the order of responses. -/
theorem C90_store_partial (hu : Usual k man) (hE : k.base.spec.alphabetic '/' = false) (hle : TotalLe k.base.world.le) (hone : OneName k man)
    (hm : man.Proper) (hr : Node.new k.env.parse nm p0 man true = some root) (h : RReach k.env none root s) (hd : s.done = true)
    (hp : Packed k man pk) (hps : PackedStore k man pk v s.graph) (ht : Iso.Installed pk v s.graph t) : DocumentsWork k man pk v t := by
  have hr' : IsRoot k.env root := ⟨nm, p0, man, hr⟩
  have hg := installable_store hu hE hle hr h hp hps
  have hgi := (h.sinv hr').pinv.ginv
  refine ⟨fun p mp => ∃ i, Stands k man s.graph i mp ∧ p = if i = 0 then [] else Iso.home v s.graph i, ⟨0, .inl ⟨rfl, rfl⟩, rfl⟩, ?_⟩
  rintro p mp ⟨i, hst, hpi⟩ n text ty hq
  have e : decide (p = []) = decide (i = 0) := by
    rw [decide_eq_decide, hpi]
    split
    · simp [*]
    · simp [*, Iso.home_ne_nil]
  rw [e] at hq
  obtain ⟨h1, h2⟩ := hst.met hu hE hle hone hm hr h hd hq
  refine ⟨h1, fun sc m q ha => ?_⟩
  obtain ⟨hso, ed, dn, q', x, cv, hlink, hdn, rfl, hs', ho', hl', hal⟩ := h2 sc m q ha
  obtain ⟨hn1, hn2, hn3, _⟩ := hp.names _ _ _ _ hso
  obtain ⟨sn, kk, hsn, hdk, hek⟩ := hlink
  have hmem := List.mem_of_getElem? hek
  have h0 := Works.dst_ne_zero hr' h ed hmem
  have hsrc : ed.src = i := by
    obtain ⟨e', dn', k1, k2, _⟩ := hgi.depReg i sn dn.name kk hsn hdk
    rw [hek] at k1
    cases k1
    exact k2
  have hj : ed.dst ∈ Iso.depsOf s.graph i := by
    unfold Iso.depsOf
    exact List.mem_map.2 ⟨ed, List.mem_filter.2 ⟨hmem, by simpa using hsrc⟩, rfl⟩
  have hname : Iso.nameOf s.graph ed.dst = dn.name := by simp [Iso.nameOf, hdn]
  have hf : Iso.finds v t p dn.name = some (Iso.home v s.graph ed.dst) := by
    rw [hpi]
    split
    · rename_i hi0
      subst hi0
      exact (Iso.C46_project_sees pk v s.graph hg t ht dn.name hn1 hn3 hn2).1 _ hj hname
    · rename_i hi0
      exact (Iso.C46_sees pk v s.graph hg t ht i sn hi0 hsn (Works.nmWord_segs (plain_name hu hE hle hr h hp i sn hi0 hsn).1) dn.name hn1 hn3 hn2).1 _ hj hname
  have hdir := (Iso.C46_link_resolves pk v s.graph hg t ht i _ sn hsn hj).2
  refine ⟨_, q', x, cv, dn.pkg, hf, Iso.home_ne_nil _ _ _, ho', hal, hl', ⟨hdir, ?_⟩, ed.dst,
    .inr ⟨h0, dn, sc, m, q', x, cv, hdn, hs', ho', hl', rfl⟩, by rw [if_neg h0]⟩
  intro r hr
  by_cases hr0 : r = []
  · subst hr0
    rw [List.append_nil, hdir, hg.dirs _ _ h0 hdn]
  · exact Iso.at_home hg ht h0 hdn hr0 (fun hh => hr (List.mem_of_mem_head? hh))

/-- **C90**, isolated: after a first install, whatever the order of responses and the order in which packages are done. -/
theorem C90_isolated_partial (hu : Usual k man) (hE : k.base.spec.alphabetic '/' = false) (hle : TotalLe k.base.world.le) (hone : OneName k man)
    (hm : man.Proper) (hr : Node.new k.env.parse nm p0 man true = some root) (h : RReach k.env none root s) (hd : s.done = true)
    (hp : Packed k man pk) (hps : PackedStore k man pk v s.graph) (d : Disk V I) (hf : Iso.Fresh d) (order : List Nat) (ho : Iso.Order s.graph order) :
    ∃ y, Iso.install pk v s.graph order d = some y ∧ DocumentsWork k man pk v y.tree := by
  obtain ⟨y, h1, h2⟩ := Iso.C46_fresh pk v s.graph (installable_store hu hE hle hr h hp hps) d hf order ho
  exact ⟨y, h1, C90_store_partial hu hE hle hone hm hr h hd hp hps (Iso.installed_of_exact h2)⟩

end Stack
end Oro
