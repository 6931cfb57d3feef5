import Verif.Proofs.PlaceKeeps

set_option linter.unusedSectionVars false

namespace Oro
variable {N P S : Type} [DecidableEq N] [DecidableEq S]
open Graph

/-- graph after `satisfy_dependency` linked `dep` to `x` -/
def linkAt (g : Graph N P S) (dep : Dep N S) (x : Nat) : Graph N P S :=
  (g.addEdge ⟨dep.node, x, dep.spec, dep.ty⟩).modify dep.node
    (fun nd => { nd with deps := nd.deps.insert dep.name g.edges.length })

def linkUpd (g : Graph N P S) (dep : Dep N S) (j : Nat) (y : Node N P S) : Node N P S :=
  { y with deps := if j = dep.node then y.deps.insert dep.name g.edges.length else y.deps }

section
variable {env : Env N P S} {g : Graph N P S} {dep : Dep N S} {x : Nat}

theorem satisfy_some {g' : Graph N P S} (hs : satisfyDependency env g dep = some (g', x)) :
    g' = linkAt g dep x ∧ g.resolveDep dep.node dep.name = some x ∧
      ∃ xn, g.nodes[x]? = some xn ∧ env.sat xn.pkg dep.spec = true := by
  unfold satisfyDependency at hs
  cases hf : g.findByName dep.node dep.name with
  | none => simp [hf] at hs
  | some z =>
    simp only [hf, pkg?] at hs
    cases hz : g.nodes[z]? with
    | none => simp [hz] at hs
    | some zn =>
      simp only [hz, Option.map_some] at hs
      by_cases hsat : env.sat zn.pkg dep.spec = true
      · simp only [hsat, if_true, Option.some.injEq, Prod.mk.injEq] at hs
        obtain ⟨h1, h2⟩ := hs
        subst h2
        exact ⟨h1.symm, hf, zn, hz, hsat⟩
      · simp [hsat] at hs

theorem linkAt_nodes (j : Nat) : (linkAt g dep x).nodes[j]? = (g.nodes[j]?).map (linkUpd g dep j) := by
  have e1 : (j = dep.node) = (dep.node = j) := propext eq_comm
  simp only [linkAt, Graph.modify, addEdge, List.getElem?_modify]
  cases g.nodes[j]? with
  | none => rfl
  | some y => by_cases h : dep.node = j <;> simp [linkUpd, e1, h]

theorem linkAt_edges : (linkAt g dep x).edges = g.edges ++ [⟨dep.node, x, dep.spec, dep.ty⟩] := rfl

theorem linkAt_length : (linkAt g dep x).nodes.length = g.nodes.length := by
  simp [linkAt, Graph.modify, addEdge]

theorem linkAt_get {j : Nat} {y : Node N P S} (h : g.nodes[j]? = some y) :
    (linkAt g dep x).nodes[j]? = some (linkUpd g dep j y) := by rw [linkAt_nodes, h]; rfl

theorem linkAt_inv {j : Nat} {z : Node N P S} (h : (linkAt g dep x).nodes[j]? = some z) :
    ∃ y, g.nodes[j]? = some y ∧ z = linkUpd g dep j y := by
  rw [linkAt_nodes] at h
  cases hy : g.nodes[j]? with
  | none => rw [hy] at h; cases h
  | some y => rw [hy] at h; simp at h; exact ⟨y, rfl, h.symm⟩

theorem linkAt_child (j : Nat) (n : N) : (linkAt g dep x).child? j n = g.child? j n := by
  unfold child?; rw [linkAt_nodes]; cases g.nodes[j]? <;> simp [linkUpd]

theorem linkAt_within {i a : Nat} (h : Within g i a) : Within (linkAt g dep x) i a := by
  induction h with
  | refl hn => exact .refl (linkAt_get hn)
  | up hn hp _ ih => exact .up (linkAt_get hn) hp ih

theorem linkAt_loads {i : Nat} {n : N} {c : Nat} (h : NodeLoads g i n c) : NodeLoads (linkAt g dep x) i n c := by
  induction h with
  | here hn hc => exact .here (linkAt_get hn) hc
  | up hn hc hp _ ih => exact .up (linkAt_get hn) hc hp ih

theorem linkAt_ginv (h : GInv env g) (hp : DepPre g dep) {xn : Node N P S}
    (hr : g.resolveDep dep.node dep.name = some x) (hx : g.nodes[x]? = some xn)
    (hsat : env.sat xn.pkg dep.spec = true) : GInv env (linkAt g dep x) := by
  obtain ⟨dn, hdn, hdreq, hddep⟩ := id hp
  have hxname : xn.name = dep.name := by
    obtain ⟨yn, h1, h2⟩ := h.resolve_get hr
    rw [hx] at h1; cases h1; exact h2
  refine ⟨?_, ?_, ?_, ?_, ?_, ?_, ?_, ?_, ?_, ?_⟩
  · obtain ⟨rd, hr, hrp⟩ := h.root; exact ⟨_, linkAt_get hr, hrp⟩
  · intro i z hz h0
    obtain ⟨y, hy, rfl⟩ := linkAt_inv hz
    obtain ⟨p, pn, h1, h2, h3, h4⟩ := h.par i y hy h0
    exact ⟨p, _, h1, h2, linkAt_get h3, h4⟩
  · intro p pn n c hpn hc
    obtain ⟨y, hy, rfl⟩ := linkAt_inv hpn
    obtain ⟨cn, h1, h2, h3⟩ := h.kid p y n c hy hc
    exact ⟨_, linkAt_get h1, h2, h3⟩
  · intro p pn hpn
    obtain ⟨y, hy, rfl⟩ := linkAt_inv hpn
    exact h.wfc p y hy
  · intro p pn hpn
    obtain ⟨y, hy, rfl⟩ := linkAt_inv hpn
    exact h.wfr p y hy
  · intro k e hk
    rw [linkAt_edges] at hk
    by_cases hkl : k < g.edges.length
    · rw [List.getElem?_append_left hkl] at hk
      obtain ⟨sn, en, hs1, hs2, hs3, hs4⟩ := h.edgeReg k e hk
      refine ⟨_, _, linkAt_get hs1, linkAt_get hs2, ?_, hs4⟩
      simp only [linkUpd]
      by_cases hsd : e.src = dep.node
      · rw [if_pos hsd, IMap.get?_insert]
        by_cases hnm : en.name = dep.name
        · rw [hsd, hdn] at hs1; cases hs1; rw [hnm, hddep] at hs3; cases hs3
        · rw [if_neg hnm]; exact hs3
      · rw [if_neg hsd]; exact hs3
    · have hlen : k = g.edges.length := by
        have := (List.getElem?_eq_some_iff.mp hk).1; simp at this; omega
      subst hlen
      simp at hk; subst hk
      refine ⟨_, _, linkAt_get hdn, linkAt_get hx, ?_, ?_⟩
      · simp [linkUpd, hxname, IMap.get?_insert_self]
      · simp only [linkUpd, hxname]; exact hdreq
  · intro i z n k hz hk
    rw [linkAt_edges]
    obtain ⟨y, hy, rfl⟩ := linkAt_inv hz
    simp only [linkUpd] at hk
    have key : ∀ {n k}, y.deps.get? n = some k → ∃ e dn, (g.edges ++ [⟨dep.node, x, dep.spec, dep.ty⟩])[k]? = some e ∧
        e.src = i ∧ (linkAt g dep x).nodes[e.dst]? = some dn ∧ dn.name = n := by
      intro n k hk
      obtain ⟨e, en, h1, h2, h3, h4⟩ := h.depReg i y n k hy hk
      refine ⟨e, _, ?_, h2, linkAt_get h3, h4⟩
      rw [List.getElem?_append_left (List.getElem?_eq_some_iff.mp h1).1]; exact h1
    by_cases hid : i = dep.node
    · rw [if_pos hid, IMap.get?_insert] at hk
      by_cases hnm : n = dep.name
      · rw [if_pos hnm] at hk; cases hk
        exact ⟨⟨dep.node, x, dep.spec, dep.ty⟩, _, List.getElem?_concat_length, hid.symm, linkAt_get hx,
          by simp [linkUpd, hxname, hnm]⟩
      · rw [if_neg hnm] at hk; exact key hk
    · rw [if_neg hid] at hk; exact key hk
  · intro p n y hy
    rw [linkAt_child] at hy
    obtain ⟨e, he, h1, h2⟩ := h.hasUser p n y hy
    exact ⟨e, by rw [linkAt_edges]; exact List.mem_append_left _ he, h1, linkAt_within h2⟩
  · intro p pn n y r ty yn hpn hpc hreq hy
    obtain ⟨pn', hpn', rfl⟩ := linkAt_inv hpn
    obtain ⟨yn', hyn', rfl⟩ := linkAt_inv hy
    rcases h.ownOK p pn' n y r ty yn' hpn' hpc hreq hyn' with h1 | ⟨e, he, h1⟩
    · exact Or.inl h1
    · exact Or.inr ⟨e, by rw [linkAt_edges]; exact List.mem_append_left _ he, h1⟩
  · intro e he en hen
    rw [linkAt_edges, List.mem_append] at he
    obtain ⟨y, hy, rfl⟩ := linkAt_inv hen
    rcases he with he | he
    · exact h.sound e he y hy
    · simp at he; subst he
      rw [hx] at hy; cases hy
      exact Or.inl hsat

theorem linkAt_effect : LinkEffect g (linkAt g dep x) dep where
  old := by
    intro j y hy
    exact ⟨_, linkAt_get hy, rfl, rfl, rfl, rfl, rfl⟩
  edge := ⟨_, linkAt_edges, rfl, rfl, rfl⟩

theorem linkAt_linksLoad (h : GInv env g) (hr : g.resolveDep dep.node dep.name = some x) (hll : LinksLoad g) :
    LinksLoad (linkAt g dep x) := by
  intro i n e ⟨z, k, hz, hk, he⟩
  obtain ⟨y, hy, rfl⟩ := linkAt_inv hz
  rw [linkAt_edges] at he
  simp only [linkUpd] at hk
  have old : y.deps.get? n = some k → NodeLoads (linkAt g dep x) i n e.dst := by
    intro hk
    obtain ⟨e', _, h1, _⟩ := h.depReg i y n k hy hk
    rw [List.getElem?_append_left (List.getElem?_eq_some_iff.mp h1).1] at he
    exact linkAt_loads (hll i n e ⟨y, k, hy, hk, he⟩)
  by_cases hid : i = dep.node
  · rw [if_pos hid, IMap.get?_insert] at hk
    by_cases hnm : n = dep.name
    · rw [if_pos hnm] at hk; cases hk
      simp at he; subst he
      subst hid; subst hnm
      exact linkAt_loads ((resolveDep_iff h.ord _ _ _).mp hr)
    · rw [if_neg hnm] at hk; exact old hk
  · rw [if_neg hid] at hk; exact old hk

end
end Oro
