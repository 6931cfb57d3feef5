import Verif.Proofs.Place
import Verif.Base.ListLemmas

set_option linter.unusedSectionVars false

namespace Oro
variable {N P S : Type} [DecidableEq N] [DecidableEq S]
open Graph

theorem GInv.edge_lt {env : Env N P S} {g : Graph N P S} (h : GInv env g) {e : Edge S} (he : e ∈ g.edges) :
    e.src < g.nodes.length ∧ e.dst < g.nodes.length := by
  obtain ⟨k, hk⟩ := List.getElem?_of_mem he
  obtain ⟨nd, dn, h1, h2, _, _⟩ := h.edgeReg k e hk
  exact ⟨lt_of_get h1, lt_of_get h2⟩

theorem GInv.child_lt {env : Env N P S} {g : Graph N P S} (h : GInv env g) {p : Nat} {n : N} {y : Nat}
    (hc : g.child? p n = some y) : ∃ yn, g.nodes[y]? = some yn ∧ yn.parent = some p ∧ yn.name = n := by
  cases hp : g.nodes[p]? with
  | none => simp [child?, hp] at hc
  | some pn => rw [child?_eq hp] at hc; exact h.kid p pn n y hp hc

theorem GInv.resolve_get {env : Env N P S} {g : Graph N P S} (h : GInv env g) {i : Nat} {n : N} {y : Nat}
    (hr : g.resolveDep i n = some y) : ∃ yn, g.nodes[y]? = some yn ∧ yn.name = n := by
  obtain ⟨u, _, hc⟩ := resolveDep_holder h.ord hr
  obtain ⟨yn, h1, _, h3⟩ := h.child_lt hc
  exact ⟨yn, h1, h3⟩

theorem conflictBelow_iff {env : Env N P S} {g : Graph N P S} (h : GInv env g) (x : Nat) (n : N) (spec : S) :
    conflictBelow env g x n spec = true ↔ ∃ r yn e, g.resolveDep x n = some r ∧ g.nodes[r]? = some yn ∧
      env.sat yn.pkg spec = false ∧ e ∈ g.edges ∧ e.dst = r ∧ Within g e.src x := by
  unfold conflictBelow
  cases hr : g.resolveDep x n with
  | none => simp
  | some r =>
    obtain ⟨yn, hy, _⟩ := h.resolve_get hr
    simp only [pkg?, hy, Option.map_some, List.any_eq_true, Bool.and_eq_true, beq_iff_eq, isAncestor_iff h.ord,
      Bool.not_eq_true']
    constructor
    · rintro ⟨e, he, ⟨h1, h2⟩, h3⟩
      exact ⟨r, yn, e, rfl, hy, h3, he, h1, h2⟩
    · rintro ⟨r', yn', e, hr', hy', h3, he, h1, h2⟩
      cases hr'; rw [hy] at hy'; cases hy'
      exact ⟨e, he, ⟨h1, h2⟩, h3⟩

theorem satisfy_none {env : Env N P S} {g : Graph N P S} (_h : GInv env g) {dep : Dep N S}
    (hs : satisfyDependency env g dep = none) {z : Nat} {zn : Node N P S}
    (hr : g.resolveDep dep.node dep.name = some z) (hz : g.nodes[z]? = some zn) :
    env.sat zn.pkg dep.spec = false := by
  have hf : g.findByName dep.node dep.name = some z := hr
  unfold satisfyDependency at hs
  simp only [hf, pkg?, hz, Option.map_some] at hs
  by_cases hsat : env.sat zn.pkg dep.spec = true
  · simp [hsat] at hs
  · simpa using hsat

theorem ancestors_sorted {g : Graph N P S} (ho : g.Ord) (i : Nat) : (g.ancestors i).Pairwise (· > ·) := by
  induction i using Nat.strongRecOn with
  | _ i ih =>
    cases hn : g.nodes[i]? with
    | none => rw [ancestors_none hn]; exact List.Pairwise.nil
    | some nd =>
      cases hp : nd.parent with
      | none => rw [ancestors_root hn hp]; simp
      | some p =>
        have hlt := ho _ _ _ hn hp
        rw [ancestors_up ho hn hp, List.pairwise_cons]
        refine ⟨?_, ih p hlt⟩
        intro a ha
        have := within_le ho ((mem_ancestors ho p a).mp ha)
        omega

theorem within_antisymm {g : Graph N P S} (ho : g.Ord) {a b : Nat} (h1 : Within g a b) (h2 : Within g b a) : a = b := by
  have := within_le ho h1; have := within_le ho h2; omega

/-- nearest holder -/
theorem resolveDep_nearest {g : Graph N P S} (ho : g.Ord) {i : Nat} {n : N} {z : Nat}
    (h : g.resolveDep i n = some z) :
    ∃ w, Within g i w ∧ g.child? w n = some z ∧ ∀ u y, Within g i u → g.child? u n = some y → Within g w u := by
  rw [resolveDep_iff ho] at h
  induction h with
  | here hn hc => exact ⟨_, .refl hn, by rw [child?_eq hn]; exact hc, fun u y hu _ => hu⟩
  | up hn hc hp _ ih =>
    obtain ⟨w, hw, hcw, hmin⟩ := ih
    refine ⟨w, .up hn hp hw, hcw, ?_⟩
    intro u y hu hcu
    cases hu with
    | refl hn' => rw [child?_eq hn, hc] at hcu; cases hcu
    | up hn' hp' hu' => rw [hn] at hn'; cases hn'; rw [hp] at hp'; cases hp'; exact hmin u y hu' hcu

/-- The folder chosen by the climb, and what is known about it. -/
structure Target (env : Env N P S) (g : Graph N P S) (dep : Dep N S) (pkg : P) (t : Nat) : Prop where
  within : Within g dep.node t
  clear : ∀ u, Within g dep.node u → Within g u t → g.child? u dep.name = none
  free : t = dep.node ∨ blocked env g dep.name dep.spec pkg t = false
  freeIf : blocked env g dep.name dep.spec pkg dep.node = true → t = dep.node

theorem DepPre.lt {g : Graph N P S} {dep : Dep N S} (h : DepPre g dep) : dep.node < g.nodes.length := by
  obtain ⟨nd, hn, _⟩ := h; exact lt_of_get hn

theorem own_clear {env : Env N P S} {g : Graph N P S} (h : GInv env g) {dep : Dep N S} (hp : DepPre g dep)
    (hs : satisfyDependency env g dep = none) : g.child? dep.node dep.name = none := by
  cases hc : g.child? dep.node dep.name with
  | none => rfl
  | some y =>
    exfalso
    obtain ⟨nd, hn, hreq, hdep⟩ := hp
    obtain ⟨yn, hy, _, hname⟩ := h.child_lt hc
    have hns := satisfy_none h hs (resolveDep_here hc) hy
    rw [child?_eq hn] at hc
    rcases h.ownOK _ _ _ _ _ _ _ hn hc hreq hy with h1 | ⟨e, he, h1, h2⟩
    · rw [hns] at h1; cases h1
    · obtain ⟨k, hk⟩ := List.getElem?_of_mem he
      obtain ⟨nd', dn, hn', hd', hreg, _⟩ := h.edgeReg k e hk
      rw [h1, hn] at hn'; cases hn'
      rw [h2, hy] at hd'; cases hd'
      rw [hname, hdep] at hreg; cases hreg

theorem climb_target {env : Env N P S} {g : Graph N P S} (h : GInv env g) {dep : Dep N S} (hp : DepPre g dep)
    (hs : satisfyDependency env g dep = none) (pkg : P) (locked : Option (List N)) :
    Target env g dep pkg (climb env g dep.name dep.spec pkg locked dep.node (g.ancestors dep.node)) := by
  have ho := h.ord
  obtain ⟨nd, hn, hreq, hdep⟩ := id hp
  rcases climb_spec env g dep.name dep.spec pkg locked (g.ancestors dep.node) dep.node with
    ⟨ht, hb⟩ | ⟨l1, l2, hl, hall⟩
  · rw [ht]
    refine ⟨.refl hn, ?_, Or.inl rfl, fun _ => rfl⟩
    intro u h1 h2
    rw [← within_antisymm ho h1 h2]; exact own_clear h hp hs
  · generalize climb env g dep.name dep.spec pkg locked dep.node (g.ancestors dep.node) = t at hl hall
    have hwt : Within g dep.node t := (mem_ancestors ho _ _).mp (by rw [hl]; simp)
    have hmem : ∀ u, Within g dep.node u → Within g u t → u ∈ l1 ++ [t] := by
      intro u h1 h2
      have hm := (mem_ancestors ho _ _).mpr h1
      have hsort := ancestors_sorted ho dep.node
      rw [hl] at hm hsort
      simp only [List.mem_append, List.mem_cons] at hm
      rcases hm with hm | hm | hm
      · simp [hm]
      · simp [hm]
      · exfalso
        rw [List.pairwise_append] at hsort
        have := (List.pairwise_cons.mp hsort.2.1).1 u hm
        have := within_le ho h2
        omega
    refine ⟨hwt, ?_, Or.inr (hall t (by simp)), ?_⟩
    · intro u h1 h2
      cases hc : g.child? u dep.name with
      | none => rfl
      | some y =>
        exfalso
        obtain ⟨z, hz⟩ := resolveDep_exists ho h1 hc
        obtain ⟨w, hw, hcw, hmin⟩ := resolveDep_nearest ho hz
        have hwu := hmin u y h1 hc
        have hwl := hmem w hw (within_trans hwu h2)
        have hnb := hall w hwl
        obtain ⟨zn, hzn, _, _⟩ := h.child_lt hcw
        have hns := satisfy_none h hs hz hzn
        obtain ⟨e, he, hed, hew⟩ := h.hasUser _ _ _ hcw
        have : conflictBelow env g w dep.name dep.spec = true :=
          (conflictBelow_iff h _ _ _).mpr ⟨z, zn, e, resolveDep_here hcw, hzn, hns, he, hed, hew⟩
        simp [blocked, this] at hnb
    · intro hbl
      have : dep.node ∈ l1 ++ [t] := hmem _ (.refl hn) hwt
      rw [hall _ this] at hbl; cases hbl

/-! ### `place_child` computes on the graph before the insertion -/

theorem climb_congr {env : Env N P S} {g g' : Graph N P S} {name : N} {spec : S} {pkg : P} {locked : Option (List N)}
    (l : List Nat)
    (h1 : ∀ x ∈ l, conflictBelow env g' x name spec = conflictBelow env g x name spec)
    (h2 : ∀ x ∈ l, conflictOwn env g' x name pkg = conflictOwn env g x name pkg)
    (h3 : ∀ x ∈ l, g'.nodePath x = g.nodePath x) :
    ∀ t, climb env g' name spec pkg locked t l = climb env g name spec pkg locked t l := by
  induction l with
  | nil => intro t; rfl
  | cons a l ih =>
    intro t
    have m : a ∈ a :: l := by simp
    simp only [climb, h1 a m, h2 a m, h3 a m]
    rw [ih (fun x hx => h1 x (List.mem_cons_of_mem _ hx)) (fun x hx => h2 x (List.mem_cons_of_mem _ hx))
      (fun x hx => h3 x (List.mem_cons_of_mem _ hx)) a]

section
variable {env : Env N P S} {g : Graph N P S}

theorem addNE_get (nd : Node N P S) (e : Edge S) {j : Nat} (hj : j < g.nodes.length) :
    ((g.addNode nd).addEdge e).nodes[j]? = g.nodes[j]? := List.getElem?_append_left hj

theorem addNE_ancestors (h : GInv env g) (nd : Node N P S) (e : Edge S) {j : Nat} (hj : j < g.nodes.length) :
    ((g.addNode nd).addEdge e).ancestors j = g.ancestors j :=
  ancestors_congr h.ord g.nodes.length (fun j hj => by rw [addNE_get nd e hj]) hj

theorem anc_lt (h : GInv env g) {i j : Nat} (hi : i < g.nodes.length) (hj : j ∈ g.ancestors i) :
    j < g.nodes.length := by
  have := within_le h.ord ((mem_ancestors h.ord _ _).mp hj); omega

theorem addNE_resolve (h : GInv env g) (nd : Node N P S) (e : Edge S) (n : N) {j : Nat} (hj : j < g.nodes.length) :
    ((g.addNode nd).addEdge e).resolveDep j n = g.resolveDep j n :=
  resolveDep_congr h.ord g.nodes.length (fun j hj => by rw [addNE_get nd e hj])
    (fun j hj => by unfold child?; rw [addNE_get nd e hj]) hj

theorem addNE_path (h : GInv env g) (nd : Node N P S) (e : Edge S) {j : Nat} (hj : j < g.nodes.length) :
    ((g.addNode nd).addEdge e).nodePath j = g.nodePath j := by
  unfold nodePath
  rw [addNE_ancestors h nd e hj]
  have hm : ∀ x ∈ ((g.ancestors j).takeWhile (· ≠ 0)).reverse, x < g.nodes.length := by
    intro x hx
    rw [List.mem_reverse] at hx
    exact anc_lt h hj ((List.takeWhile_sublist _).subset hx)
  apply filterMap_congr'
  intro x hx
  rw [addNE_get nd e (hm x hx)]

theorem addNE_conflictBelow (h : GInv env g) (nd : Node N P S) (e : Edge S) (he : e.dst = g.nodes.length)
    (n : N) (spec : S) {x : Nat} (hx : x < g.nodes.length) :
    conflictBelow env ((g.addNode nd).addEdge e) x n spec = conflictBelow env g x n spec := by
  unfold conflictBelow
  rw [addNE_resolve h nd e n hx]
  cases hr : g.resolveDep x n with
  | none => rfl
  | some r =>
    obtain ⟨yn, hy, _⟩ := h.resolve_get hr
    have hrl := lt_of_get hy
    simp only
    have he' : ((g.addNode nd).addEdge e).edges = g.edges ++ [e] := rfl
    rw [he', List.any_append]
    have hne : (e.dst == r) = false := by simp; omega
    simp only [List.any_cons, List.any_nil, hne, Bool.false_and, Bool.or_false]
    have hp : ((g.addNode nd).addEdge e).pkg? r = g.pkg? r := by unfold pkg?; rw [addNE_get nd e hrl]
    rw [hp]
    have : ∀ l : List (Edge S), (∀ e ∈ l, e ∈ g.edges) →
        (l.any fun e' => e'.dst == r && ((g.addNode nd).addEdge e).isAncestor x e'.src &&
          !(match g.pkg? r with | some p => env.sat p spec | none => false)) =
        (l.any fun e' => e'.dst == r && g.isAncestor x e'.src &&
          !(match g.pkg? r with | some p => env.sat p spec | none => false)) := by
      intro l
      induction l with
      | nil => intro _; rfl
      | cons a l ih =>
        intro hl
        simp only [List.any_cons]
        rw [ih (fun e he => hl e (List.mem_cons_of_mem _ he))]
        have hs := (h.edge_lt (hl a (by simp))).1
        have : ((g.addNode nd).addEdge e).isAncestor x a.src = g.isAncestor x a.src := by
          unfold isAncestor; rw [addNE_ancestors h nd e hs]
        rw [this]
    exact this g.edges (fun _ h => h)

theorem placeChild_eq (h : GInv env g) {dep : Dep N S} (hp : DepPre g dep) {pkg : P} {m : Manifest N}
    {tp : Option (List N)} (hs : satisfyDependency env g dep = none) {r : Placed N P S}
    (hr : placeChild env g dep pkg m tp = some r) :
    ∃ nd t, Node.new env.parse dep.name pkg m false = some nd ∧ Target env g dep pkg t ∧
      r.graph = placeAt g dep nd t ∧ r.child = g.nodes.length ∧ r.clobbered = g.child? t dep.name := by
  unfold placeChild at hr
  cases hn : Node.new env.parse dep.name pkg m false with
  | none => rw [hn] at hr; cases hr
  | some nd =>
    rw [hn] at hr
    simp only [Option.some.injEq] at hr
    have hlt := hp.lt
    have hcl : climb env ((g.addNode nd).addEdge ⟨dep.node, g.nodes.length, dep.spec, dep.ty⟩) dep.name dep.spec pkg
        (tp.map List.dropLast) dep.node
        (((g.addNode nd).addEdge ⟨dep.node, g.nodes.length, dep.spec, dep.ty⟩).ancestors dep.node)
        = climb env g dep.name dep.spec pkg (tp.map List.dropLast) dep.node (g.ancestors dep.node) := by
      rw [addNE_ancestors h nd _ hlt]
      apply climb_congr
      · intro x hx; exact addNE_conflictBelow h nd _ rfl _ _ (anc_lt h hlt hx)
      · intro x hx; unfold conflictOwn; rw [addNE_get nd _ (anc_lt h hlt hx)]
      · intro x hx; exact addNE_path h nd _ (anc_lt h hlt hx)
    have ht := climb_target h hp hs pkg (tp.map List.dropLast)
    rw [← hcl] at ht
    rw [← hr]
    refine ⟨nd, _, rfl, ht, rfl, rfl, ?_⟩
    have htl : climb env ((g.addNode nd).addEdge ⟨dep.node, g.nodes.length, dep.spec, dep.ty⟩) dep.name dep.spec pkg
        (tp.map List.dropLast) dep.node
        (((g.addNode nd).addEdge ⟨dep.node, g.nodes.length, dep.spec, dep.ty⟩).ancestors dep.node)
        < g.nodes.length := by
      obtain ⟨tn, htn⟩ := within_exists ht.within; exact lt_of_get htn
    generalize climb env ((g.addNode nd).addEdge ⟨dep.node, g.nodes.length, dep.spec, dep.ty⟩) dep.name dep.spec pkg
        (tp.map List.dropLast) dep.node
        (((g.addNode nd).addEdge ⟨dep.node, g.nodes.length, dep.spec, dep.ty⟩).ancestors dep.node) = t at htl
    have hx : (g.nodes ++ [nd])[t]? = g.nodes[t]? := List.getElem?_append_left htl
    have hne : ¬ g.nodes.length = t := by omega
    simp only [child?, Graph.modify, addNode, addEdge, List.getElem?_modify, hx]
    cases g.nodes[t]? with
    | none => rfl
    | some x => by_cases h1 : dep.node = t <;> simp [h1, hne]

end
end Oro
