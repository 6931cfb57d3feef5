import Verif.Proofs.Graph

set_option linter.unusedSectionVars false

namespace Oro
variable {N P S : Type} [DecidableEq N] [DecidableEq S]
open Graph

/-- Graph invariant of the resolver. -/
structure GInv (env : Env N P S) (g : Graph N P S) : Prop where
  root : ∃ nd, g.nodes[0]? = some nd ∧ nd.parent = none
  par : ∀ (i : Nat) (nd : Node N P S), g.nodes[i]? = some nd → i ≠ 0 →
    ∃ p pn, nd.parent = some p ∧ p < i ∧ g.nodes[p]? = some pn ∧ pn.children.get? nd.name = some i
  kid : ∀ (p : Nat) (pn : Node N P S) (n : N) (c : Nat), g.nodes[p]? = some pn → pn.children.get? n = some c →
    ∃ nd, g.nodes[c]? = some nd ∧ nd.parent = some p ∧ nd.name = n
  wfc : ∀ (p : Nat) (pn : Node N P S), g.nodes[p]? = some pn → pn.children.WF
  wfr : ∀ (p : Nat) (pn : Node N P S), g.nodes[p]? = some pn → pn.reqs.WF
  edgeReg : ∀ (k : Nat) (e : Edge S), g.edges[k]? = some e → ∃ nd dn : Node N P S,
    g.nodes[e.src]? = some nd ∧ g.nodes[e.dst]? = some dn ∧ nd.deps.get? dn.name = some k
      ∧ nd.reqs.get? dn.name = some (e.spec, e.ty)
  depReg : ∀ (i : Nat) (nd : Node N P S) (n : N) (k : Nat), g.nodes[i]? = some nd → nd.deps.get? n = some k →
    ∃ e dn, g.edges[k]? = some e ∧ e.src = i ∧ g.nodes[e.dst]? = some dn ∧ dn.name = n
  hasUser : ∀ (p : Nat) (n : N) (y : Nat), g.child? p n = some y → ∃ e ∈ g.edges, e.dst = y ∧ Within g e.src p
  ownOK : ∀ (p : Nat) (pn : Node N P S) (n : N) (y : Nat) (r : S) (ty : DepType) (yn : Node N P S),
    g.nodes[p]? = some pn → pn.children.get? n = some y → pn.reqs.get? n = some (r, ty) → g.nodes[y]? = some yn →
    env.sat yn.pkg r = true ∨ ∃ e ∈ g.edges, e.src = p ∧ e.dst = y
  sound : ∀ e ∈ g.edges, ∀ dn : Node N P S, g.nodes[e.dst]? = some dn →
    env.sat dn.pkg e.spec = true ∨ ∃ m, env.fetch e.spec = some (dn.pkg, m)

theorem GInv.ord {env : Env N P S} {g : Graph N P S} (h : GInv env g) : g.Ord := by
  intro i nd p hn hp
  by_cases h0 : i = 0
  · subst h0
    obtain ⟨rd, hr, hrp⟩ := h.root
    rw [hn] at hr; cases hr; rw [hp] at hrp; cases hrp
  · obtain ⟨p', pn, hp', hlt, _, _⟩ := h.par i nd hn h0
    rw [hp] at hp'; cases hp'; exact hlt

theorem GInv.rooted {env : Env N P S} {g : Graph N P S} (h : GInv env g) :
    ∀ (i : Nat) (nd : Node N P S), g.nodes[i]? = some nd → Within g i 0 := by
  intro i
  induction i using Nat.strongRecOn with
  | _ i ih =>
    intro nd hn
    by_cases h0 : i = 0
    · subst h0; exact .refl hn
    · obtain ⟨p, pn, hp, hlt, hpn, _⟩ := h.par i nd hn h0
      exact .up hn hp (ih p hlt pn hpn)

theorem GInv.folderTree {env : Env N P S} {g : Graph N P S} (h : GInv env g) : FolderTree g where
  root := h.root
  listed := by
    intro i nd hn h0
    obtain ⟨p, pn, hp, _, hpn, hc⟩ := h.par i nd hn h0
    exact ⟨p, pn, hp, hpn, hc⟩
  lists := h.kid
  unique := h.wfc
  rooted := h.rooted

/-- The requirement `dep` is declared by its node and not linked yet. -/
def DepPre (g : Graph N P S) (dep : Dep N S) : Prop :=
  ∃ nd, g.nodes[dep.node]? = some nd ∧ nd.reqs.get? dep.name = some (dep.spec, dep.ty) ∧ nd.deps.get? dep.name = none

/-- Effect of linking `dep`: only the dependent's links change (and one edge is added). -/
structure LinkEffect (g g' : Graph N P S) (dep : Dep N S) : Prop where
  old : ∀ (j : Nat) (nd : Node N P S), g.nodes[j]? = some nd → ∃ nd', g'.nodes[j]? = some nd' ∧ nd'.name = nd.name ∧
    nd'.pkg = nd.pkg ∧ nd'.reqs = nd.reqs ∧ nd'.parent = nd.parent ∧
    nd'.deps = if j = dep.node then nd.deps.insert dep.name g.edges.length else nd.deps
  edge : ∃ e, g'.edges = g.edges ++ [e] ∧ e.src = dep.node ∧ e.spec = dep.spec ∧ e.ty = dep.ty

/-! ### climb -/

/-- the two reasons to stop climbing -/
def blocked (env : Env N P S) (g : Graph N P S) (name : N) (spec : S) (pkg : P) (x : Nat) : Bool :=
  conflictBelow env g x name spec || conflictOwn env g x name pkg

theorem climb_spec (env : Env N P S) (g : Graph N P S) (name : N) (spec : S) (pkg : P) (locked : Option (List N))
    (l : List Nat) : ∀ target,
    let t := climb env g name spec pkg locked target l
    (t = target ∧ (l = [] ∨ ∃ x l', l = x :: l' ∧ blocked env g name spec pkg x = true)) ∨
    (∃ l1 l2, l = l1 ++ t :: l2 ∧ ∀ x ∈ l1 ++ [t], blocked env g name spec pkg x = false) := by
  induction l with
  | nil => intro target; left; simp [climb]
  | cons a l ih =>
    intro target
    simp only [climb]
    by_cases h1 : conflictBelow env g a name spec = true
    · left; simp only [h1, if_true, true_and]
      right; exact ⟨a, l, rfl, by simp [blocked, h1]⟩
    · simp only [h1]
      by_cases h2 : conflictOwn env g a name pkg = true
      · left; simp only [h2]
        exact ⟨by simp, Or.inr ⟨a, l, rfl, by simp [blocked, h2]⟩⟩
      · have hb : blocked env g name spec pkg a = false := by simp [blocked, h1, h2]
        simp only [h2]
        by_cases h3 : locked = some (g.nodePath a)
        · right; simp only [h3]; exact ⟨[], l, by simp, by simpa using hb⟩
        · simp only [h3]
          rcases ih a with ⟨ht, _⟩ | ⟨l1, l2, hl, hall⟩
          · right
            simp only [Bool.false_eq_true, if_false]
            refine ⟨[], l, ?_, ?_⟩
            · rw [ht]; simp
            · rw [ht]; simpa using hb
          · right
            simp only [Bool.false_eq_true, if_false]
            refine ⟨a :: l1, l2, ?_, ?_⟩
            · rw [List.cons_append, ← hl]
            · intro x hx
              rcases List.mem_cons.mp hx with rfl | hx
              · exact hb
              · exact hall x hx

/-! ### placing at a given folder -/

/-- `place_child` once the target is known. -/
def placeAt (g : Graph N P S) (dep : Dep N S) (nd : Node N P S) (t : Nat) : Graph N P S :=
  let g1 := (g.addNode nd).addEdge ⟨dep.node, g.nodes.length, dep.spec, dep.ty⟩
  let g2 := g1.modify dep.node (fun nd => { nd with deps := nd.deps.insert dep.name g.edges.length })
  let g3 := g2.modify g.nodes.length (fun nd => { nd with parent := some t })
  g3.modify t (fun nd => { nd with children := nd.children.insert dep.name g.nodes.length })

/-- update of an old node by `placeAt` -/
def placeUpd (g : Graph N P S) (dep : Dep N S) (t j : Nat) (x : Node N P S) : Node N P S :=
  { x with deps := if j = dep.node then x.deps.insert dep.name g.edges.length else x.deps,
           children := if j = t then x.children.insert dep.name g.nodes.length else x.children }

theorem placeAt_old (g : Graph N P S) (dep : Dep N S) (nd : Node N P S) (t : Nat) {j : Nat}
    (hj : j < g.nodes.length) :
    (placeAt g dep nd t).nodes[j]? = (g.nodes[j]?).map (placeUpd g dep t j) := by
  have hne : g.nodes.length ≠ j := by omega
  have hx : (g.nodes ++ [nd])[j]? = g.nodes[j]? := List.getElem?_append_left hj
  simp only [placeAt, Graph.modify, addNode, addEdge, List.getElem?_modify, hx]
  cases g.nodes[j]? with
  | none => rfl
  | some x =>
    have e1 : (j = dep.node) = (dep.node = j) := propext eq_comm
    have e2 : (j = t) = (t = j) := propext eq_comm
    by_cases h1 : dep.node = j <;> by_cases h2 : t = j <;>
      simp [placeUpd, e1, e2, h1, h2, hne]

theorem placeAt_new (g : Graph N P S) (dep : Dep N S) (nd : Node N P S) (t : Nat)
    (hd : dep.node < g.nodes.length) (ht : t < g.nodes.length) :
    (placeAt g dep nd t).nodes[g.nodes.length]? = some { nd with parent := some t } := by
  have h1 : dep.node ≠ g.nodes.length := by omega
  have h2 : t ≠ g.nodes.length := by omega
  simp [placeAt, Graph.modify, addNode, addEdge, h1, h2]

theorem placeAt_length (g : Graph N P S) (dep : Dep N S) (nd : Node N P S) (t : Nat) :
    (placeAt g dep nd t).nodes.length = g.nodes.length + 1 := by
  simp [placeAt, Graph.modify, addNode, addEdge]

theorem placeAt_edges (g : Graph N P S) (dep : Dep N S) (nd : Node N P S) (t : Nat) :
    (placeAt g dep nd t).edges = g.edges ++ [⟨dep.node, g.nodes.length, dep.spec, dep.ty⟩] := by
  simp [placeAt, Graph.modify, addNode, addEdge]

theorem lt_of_get {g : Graph N P S} {j : Nat} {nd : Node N P S} (h : g.nodes[j]? = some nd) : j < g.nodes.length :=
  (List.getElem?_eq_some_iff.mp h).1

/-- cases for a node of the new graph -/
theorem placeAt_cases (g : Graph N P S) (dep : Dep N S) (nd : Node N P S) (t : Nat)
    (hd : dep.node < g.nodes.length) (ht : t < g.nodes.length) {j : Nat} {x : Node N P S}
    (h : (placeAt g dep nd t).nodes[j]? = some x) :
    (j < g.nodes.length ∧ ∃ y, g.nodes[j]? = some y ∧ x = placeUpd g dep t j y) ∨
    (j = g.nodes.length ∧ x = { nd with parent := some t }) := by
  have hl := lt_of_get h
  rw [placeAt_length] at hl
  by_cases hj : j < g.nodes.length
  · left
    rw [placeAt_old g dep nd t hj] at h
    cases hy : g.nodes[j]? with
    | none => rw [hy] at h; cases h
    | some y => rw [hy] at h; simp at h; exact ⟨hj, y, rfl, h.symm⟩
  · right
    have : j = g.nodes.length := by omega
    subst this
    rw [placeAt_new g dep nd t hd ht] at h; cases h; exact ⟨rfl, rfl⟩

theorem placeAt_parent (g : Graph N P S) (dep : Dep N S) (nd : Node N P S) (t : Nat) :
    ∀ j, j < g.nodes.length →
      ((placeAt g dep nd t).nodes[j]?).map (·.parent) = (g.nodes[j]?).map (·.parent) := by
  intro j hj
  rw [placeAt_old g dep nd t hj]
  cases g.nodes[j]? <;> simp [placeUpd]

theorem placeAt_ord {g : Graph N P S} (ho : g.Ord) (dep : Dep N S) (nd : Node N P S) (t : Nat)
    (hd : dep.node < g.nodes.length) (ht : t < g.nodes.length) : (placeAt g dep nd t).Ord := by
  intro i x p hx hp
  rcases placeAt_cases g dep nd t hd ht hx with ⟨_, y, hy, rfl⟩ | ⟨rfl, rfl⟩
  · exact ho i y p hy hp
  · simp at hp; omega

theorem placeAt_within {g : Graph N P S} (ho : g.Ord) (dep : Dep N S) (nd : Node N P S) (t : Nat)
    (hd : dep.node < g.nodes.length) (ht : t < g.nodes.length) {i a : Nat} (hi : i < g.nodes.length) :
    Within (placeAt g dep nd t) i a ↔ Within g i a :=
  within_congr ho (placeAt_ord ho dep nd t hd ht) _ (placeAt_parent g dep nd t) hi

theorem placeAt_child (g : Graph N P S) (dep : Dep N S) (nd : Node N P S) (t : Nat) {j : Nat} (n : N)
    (hj : j < g.nodes.length) :
    (placeAt g dep nd t).child? j n =
      if j = t ∧ n = dep.name then some g.nodes.length else g.child? j n := by
  unfold child?
  rw [placeAt_old g dep nd t hj]
  obtain ⟨x, hx⟩ : ∃ x, g.nodes[j]? = some x := ⟨_, List.getElem?_eq_getElem hj⟩
  rw [hx]
  by_cases h1 : j = t
  · by_cases h2 : n = dep.name <;> simp [placeUpd, h1, h2, IMap.get?_insert]
  · simp [placeUpd, h1]

theorem nodeNew_spec {parse : N → Str → Option S} {name : N} {pkg : P} {m : Manifest N} {b : Bool}
    {nd : Node N P S} (h : Node.new parse name pkg m b = some nd) :
    nd.name = name ∧ nd.pkg = pkg ∧ nd.parent = none ∧ nd.children = [] ∧ nd.deps = [] ∧
      mkReqs parse m b = some nd.reqs := by
  unfold Node.new at h
  cases hr : mkReqs parse m b with
  | none => rw [hr] at h; cases h
  | some r => rw [hr] at h; simp at h; subst h; simp

theorem mkReqs_wf {parse : N → Str → Option S} {m : Manifest N} {b : Bool} {r : IMap N (S × DepType)}
    (h : mkReqs parse m b = some r) : r.WF := by
  unfold mkReqs at h
  generalize (m.deps.map (fun d => (d, DepType.prod)) ++ m.optDeps.map (fun d => (d, DepType.opt))
    ++ (if b then m.devDeps.map (fun d => (d, DepType.dev)) else [])) = l at h
  suffices ∀ (l : List ((N × Str) × DepType)) (a : Option (IMap N (S × DepType))),
      (∀ x, a = some x → x.WF) → ∀ r, l.foldl (fun acc d =>
        match acc, parse d.1.1 d.1.2 with
        | some acc, some spec => some (acc.insert d.1.1 (spec, d.2))
        | _, _ => none) a = some r → r.WF from
    this l (some []) (by intro x hx; cases hx; exact IMap.wf_nil) r h
  intro l
  induction l with
  | nil => intro a ha r hr; exact ha r hr
  | cons d l ih =>
    intro a ha r hr
    refine ih _ ?_ r hr
    intro x hx
    cases a with
    | none => simp at hx
    | some a =>
      cases hp : parse d.1.1 d.1.2 with
      | none => simp [hp] at hx
      | some sp => simp [hp] at hx; subst hx; exact IMap.wf_insert (ha a rfl) _ _

end Oro
