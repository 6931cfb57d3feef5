import Verif.Proofs.PlaceInv

set_option linter.unusedSectionVars false

namespace Oro
variable {N P S : Type} [DecidableEq N] [DecidableEq S]
open Graph

section
variable {env : Env N P S} {g : Graph N P S} {dep : Dep N S} {pkg : P} {nd : Node N P S} {t : Nat}

theorem Target.lt (ht : Target env g dep pkg t) : t < g.nodes.length := by
  obtain ⟨tn, htn⟩ := within_exists ht.within; exact lt_of_get htn

theorem placeAt_get (t : Nat) {j : Nat} {y : Node N P S} (hy : g.nodes[j]? = some y) :
    (placeAt g dep nd t).nodes[j]? = some (placeUpd g dep t j y) := by
  rw [placeAt_old g dep nd t (lt_of_get hy), hy]; rfl

theorem placeAt_ginv {m : Manifest N} (h : GInv env g) (hp : DepPre g dep)
    (hn : Node.new env.parse dep.name pkg m false = some nd) (ht : Target env g dep pkg t)
    (hok : env.sat pkg dep.spec = true ∨ ∃ m, env.fetch dep.spec = some (pkg, m)) :
    GInv env (placeAt g dep nd t) := by
  have hd := hp.lt
  have htl := ht.lt
  have ho := h.ord
  obtain ⟨hname, hpkg, hpar, hch, hdeps, hreqs⟩ := nodeNew_spec hn
  obtain ⟨tn, htn⟩ := within_exists ht.within
  have hclr : g.child? t dep.name = none := ht.clear t ht.within (.refl htn)
  obtain ⟨dn, hdn, hdreq, hddep⟩ := id hp
  have hc := placeAt_new g dep nd t hd htl
  refine ⟨?_, ?_, ?_, ?_, ?_, ?_, ?_, ?_, ?_, ?_⟩
  · -- root
    obtain ⟨rd, hr, hrp⟩ := h.root
    exact ⟨_, placeAt_get t hr, hrp⟩
  · -- par
    intro i x hx h0
    rcases placeAt_cases g dep nd t hd htl hx with ⟨_, y, hy, rfl⟩ | ⟨rfl, rfl⟩
    · obtain ⟨p, pn, hpp, hlt, hpn, hpc⟩ := h.par i y hy h0
      refine ⟨p, _, hpp, hlt, placeAt_get t hpn, ?_⟩
      simp only [placeUpd]
      by_cases hpt : p = t
      · subst hpt
        rw [if_pos rfl, IMap.get?_insert]
        by_cases hnm : y.name = dep.name
        · rw [child?_eq hpn, ← hnm, hpc] at hclr; cases hclr
        · rw [if_neg hnm]; exact hpc
      · rw [if_neg hpt]; exact hpc
    · refine ⟨t, _, rfl, htl, placeAt_get t htn, ?_⟩
      simp [placeUpd, hname, IMap.get?_insert_self]
  · -- kid
    intro p pn n c hpn hpc
    rcases placeAt_cases g dep nd t hd htl hpn with ⟨_, y, hy, rfl⟩ | ⟨rfl, rfl⟩
    · simp only [placeUpd] at hpc
      by_cases hpt : p = t
      · subst hpt
        rw [if_pos rfl, IMap.get?_insert] at hpc
        by_cases hnm : n = dep.name
        · rw [if_pos hnm] at hpc; cases hpc
          exact ⟨_, hc, rfl, by simp [hname, hnm]⟩
        · rw [if_neg hnm] at hpc
          obtain ⟨cn, h1, h2, h3⟩ := h.kid p y n c hy hpc
          exact ⟨_, placeAt_get p h1, h2, h3⟩
      · rw [if_neg hpt] at hpc
        obtain ⟨cn, h1, h2, h3⟩ := h.kid p y n c hy hpc
        exact ⟨_, placeAt_get t h1, h2, h3⟩
    · simp [hch] at hpc
  · -- wfc
    intro p pn hpn
    rcases placeAt_cases g dep nd t hd htl hpn with ⟨_, y, hy, rfl⟩ | ⟨rfl, rfl⟩
    · simp only [placeUpd]; split
      · exact IMap.wf_insert (h.wfc p y hy) _ _
      · exact h.wfc p y hy
    · simp only [hch]; exact IMap.wf_nil
  · -- wfr
    intro p pn hpn
    rcases placeAt_cases g dep nd t hd htl hpn with ⟨_, y, hy, rfl⟩ | ⟨rfl, rfl⟩
    · exact h.wfr p y hy
    · exact mkReqs_wf hreqs
  · -- edgeReg
    intro k e hk
    rw [placeAt_edges] at hk
    by_cases hkl : k < g.edges.length
    · rw [List.getElem?_append_left hkl] at hk
      obtain ⟨sn, en, hs1, hs2, hs3, hs4⟩ := h.edgeReg k e hk
      refine ⟨_, _, placeAt_get t hs1, placeAt_get t hs2, ?_, hs4⟩
      simp only [placeUpd]
      by_cases hsd : e.src = dep.node
      · rw [if_pos hsd, IMap.get?_insert]
        by_cases hnm : en.name = dep.name
        · rw [hsd, hdn] at hs1; cases hs1; rw [hnm, hddep] at hs3; cases hs3
        · rw [if_neg hnm]; exact hs3
      · rw [if_neg hsd]; exact hs3
    · have hlen : k = g.edges.length := by
        have := (List.getElem?_eq_some_iff.mp hk).1; simp at this; omega
      subst hlen
      simp at hk; subst hk
      refine ⟨_, _, placeAt_get t hdn, hc, ?_, ?_⟩
      · simp [placeUpd, hname, IMap.get?_insert_self]
      · simp only [placeUpd, hname]; exact hdreq
  · -- depReg
    intro i x n k hx hk
    rw [placeAt_edges]
    rcases placeAt_cases g dep nd t hd htl hx with ⟨_, y, hy, rfl⟩ | ⟨rfl, rfl⟩
    · simp only [placeUpd] at hk
      have key : ∀ {n k}, y.deps.get? n = some k → ∃ e dn, (g.edges ++ [⟨dep.node, g.nodes.length, dep.spec, dep.ty⟩])[k]? = some e ∧
          e.src = i ∧ (placeAt g dep nd t).nodes[e.dst]? = some dn ∧ dn.name = n := by
        intro n k hk
        obtain ⟨e, en, h1, h2, h3, h4⟩ := h.depReg i y n k hy hk
        refine ⟨e, _, ?_, h2, placeAt_get t h3, h4⟩
        rw [List.getElem?_append_left (List.getElem?_eq_some_iff.mp h1).1]; exact h1
      by_cases hid : i = dep.node
      · rw [if_pos hid, IMap.get?_insert] at hk
        by_cases hnm : n = dep.name
        · rw [if_pos hnm] at hk; cases hk
          exact ⟨⟨dep.node, g.nodes.length, dep.spec, dep.ty⟩, _, List.getElem?_concat_length, hid.symm, hc,
            by simp [hname, hnm]⟩
        · rw [if_neg hnm] at hk; exact key hk
      · rw [if_neg hid] at hk; exact key hk
    · simp [hdeps] at hk
  · -- hasUser
    intro p n y hy
    rw [placeAt_edges]
    have hpl : p < g.nodes.length + 1 := by
      unfold child? at hy
      cases hpn : (placeAt g dep nd t).nodes[p]? with
      | none => rw [hpn] at hy; cases hy
      | some pn => have := lt_of_get hpn; rw [placeAt_length] at this; exact this
    by_cases hpl' : p < g.nodes.length
    · rw [placeAt_child g dep nd t n hpl'] at hy
      by_cases hcond : p = t ∧ n = dep.name
      · rw [if_pos hcond] at hy; cases hy
        refine ⟨⟨dep.node, g.nodes.length, dep.spec, dep.ty⟩, by simp, rfl, ?_⟩
        rw [hcond.1]; exact (placeAt_within ho dep nd t hd htl hd).mpr ht.within
      · rw [if_neg hcond] at hy
        obtain ⟨e, he, h1, h2⟩ := h.hasUser p n y hy
        exact ⟨e, List.mem_append_left _ he, h1,
          (placeAt_within ho dep nd t hd htl (within_lt_length h2)).mpr h2⟩
    · have : p = g.nodes.length := by omega
      subst this
      rw [child?_eq hc] at hy; simp [hch] at hy
  · -- ownOK
    intro p pn n y r ty yn hpn hpc hreq hy
    rw [placeAt_edges]
    rcases placeAt_cases g dep nd t hd htl hpn with ⟨_, x, hx, rfl⟩ | ⟨rfl, rfl⟩
    · simp only [placeUpd] at hpc hreq
      have old : ∀ {y yn}, x.children.get? n = some y → (placeAt g dep nd t).nodes[y]? = some yn →
          env.sat yn.pkg r = true ∨ ∃ e ∈ g.edges ++ [⟨dep.node, g.nodes.length, dep.spec, dep.ty⟩],
            e.src = p ∧ e.dst = y := by
        intro y yn hxc hyn
        obtain ⟨cn, h1, _, _⟩ := h.kid p x n y hx hxc
        rw [placeAt_get t h1] at hyn; cases hyn
        rcases h.ownOK p x n y r ty cn hx hxc hreq h1 with h2 | ⟨e, he, h3⟩
        · exact Or.inl h2
        · exact Or.inr ⟨e, List.mem_append_left _ he, h3⟩
      by_cases hpt : p = t
      · rw [if_pos hpt, IMap.get?_insert] at hpc
        by_cases hnm : n = dep.name
        · rw [if_pos hnm] at hpc; cases hpc
          rw [hc] at hy; cases hy
          rcases ht.free with hf | hf
          · right
            exact ⟨⟨dep.node, g.nodes.length, dep.spec, dep.ty⟩, List.mem_append_right _ (by simp),
              by rw [hpt, hf], rfl⟩
          · left
            have hco : conflictOwn env g t dep.name pkg = false := by
              simp only [blocked, Bool.or_eq_false_iff] at hf; exact hf.2
            unfold conflictOwn at hco
            rw [← hpt, hx] at hco
            rw [hnm] at hreq
            simp only [Option.bind_some, hreq] at hco
            simp only [hpkg]
            simpa using hco
        · rw [if_neg hnm] at hpc; exact old hpc hy
      · rw [if_neg hpt] at hpc; exact old hpc hy
    · simp [hch] at hpc
  · -- sound
    intro e he en hen
    rw [placeAt_edges, List.mem_append] at he
    rcases he with he | he
    · have hl := (h.edge_lt he).2
      obtain ⟨x, hx⟩ : ∃ x, g.nodes[e.dst]? = some x := ⟨_, List.getElem?_eq_getElem hl⟩
      rw [placeAt_get t hx] at hen; cases hen
      exact h.sound e he x hx
    · simp at he; subst he
      rw [hc] at hen; cases hen
      simp only [hpkg]; exact hok

theorem placeAt_effect : LinkEffect g (placeAt g dep nd t) dep where
  old := by
    intro j x hx
    exact ⟨_, placeAt_get t hx, rfl, rfl, rfl, rfl, rfl⟩
  edge := ⟨_, placeAt_edges g dep nd t, rfl, rfl, rfl⟩

/-- A lookup that does not go through the new entry is unchanged. -/
theorem loads_keep {i : Nat} {n : N} {y : Nat}
    (hl : NodeLoads g i n y)
    (hex : ¬ (n = dep.name ∧ Within g i t ∧ NodeLoads g t dep.name y)) :
    NodeLoads (placeAt g dep nd t) i n y := by
  induction hl with
  | @here i n c x hx hxc =>
    refine .here (placeAt_get t hx) ?_
    simp only [placeUpd]
    by_cases hit : i = t
    · subst hit
      by_cases hnm : n = dep.name
      · exact absurd ⟨hnm, .refl hx, .here hx (hnm ▸ hxc)⟩ hex
      · rw [if_pos rfl, IMap.get?_insert, if_neg hnm]; exact hxc
    · rw [if_neg hit]; exact hxc
  | @up i p n c x hx hxc hp hl ih =>
    refine .up (p := p) (placeAt_get t hx) ?_ hp (ih ?_)
    · simp only [placeUpd]
      by_cases hit : i = t
      · subst hit
        by_cases hnm : n = dep.name
        · exact absurd ⟨hnm, .refl hx, hnm ▸ .up hx hxc hp hl⟩ hex
        · rw [if_pos rfl, IMap.get?_insert, if_neg hnm]; exact hxc
      · rw [if_neg hit]; exact hxc
    · rintro ⟨h1, h2, h3⟩; exact hex ⟨h1, .up hx hp h2, h3⟩

/-- The dependent loads the new package. -/
theorem loads_new (h : GInv env g) (ht : Target env g dep pkg t) :
    NodeLoads (placeAt g dep nd t) dep.node dep.name g.nodes.length := by
  have key : ∀ i, Within g i t → (∀ u, Within g i u → Within g u t → g.child? u dep.name = none) →
      NodeLoads (placeAt g dep nd t) i dep.name g.nodes.length := by
    intro i hw
    induction hw with
    | @refl i x hx =>
      intro _
      refine .here (placeAt_get _ hx) ?_
      simp [placeUpd, IMap.get?_insert_self]
    | @up i p a x hx hp hw ih =>
      intro hclr
      refine .up (p := p) (placeAt_get _ hx) ?_ hp (ih ht (fun u h1 h2 => hclr u (.up hx hp h1) h2))
      have hne : i ≠ a := by
        intro hia
        subst hia
        have := h.ord _ _ _ hx hp
        have := within_le h.ord hw
        omega
      simp only [placeUpd, if_neg hne]
      rw [← child?_eq hx]
      exact hclr i (.refl hx) (.up hx hp hw)
  exact key _ ht.within ht.clear

theorem loads_unique {g : Graph N P S} {i : Nat} {n : N} {a b : Nat} (h1 : NodeLoads g i n a) (h2 : NodeLoads g i n b) :
    a = b := by
  induction h1 with
  | here hx hc =>
    cases h2 with
    | here hx' hc' => rw [hx] at hx'; cases hx'; rw [hc] at hc'; cases hc'; rfl
    | up hx' hc' _ _ => rw [hx] at hx'; cases hx'; rw [hc] at hc'; cases hc'
  | up hx hc hp _ ih =>
    cases h2 with
    | here hx' hc' => rw [hx] at hx'; cases hx'; rw [hc] at hc'; cases hc'
    | up hx' hc' hp' h' => rw [hx] at hx'; cases hx'; rw [hp] at hp'; cases hp'; exact ih h'

/-- along a path without entries, lookups agree -/
theorem loads_along {g : Graph N P S} {i a : Nat} {n : N} {y : Nat} (hw : Within g i a)
    (hclr : ∀ u, Within g i u → Within g u a → g.child? u n = none) (hl : NodeLoads g a n y) : NodeLoads g i n y := by
  induction hw with
  | refl _ => exact hl
  | @up i p a x hx hp hw ih =>
    refine .up hx ?_ hp (ih (fun u h1 h2 => hclr u (.up hx hp h1) h2) hl)
    rw [← child?_eq hx]; exact hclr i (.refl hx) (.up hx hp hw)

theorem placeAt_linked_old {i : Nat} {n : N} {e : Edge S} (h : GInv env g) (hp : DepPre g dep) (htl : t < g.nodes.length)
    {m : Manifest N} (hn : Node.new env.parse dep.name pkg m false = some nd)
    (hl : Linked (placeAt g dep nd t) i n e) :
    Linked g i n e ∨ (i = dep.node ∧ n = dep.name ∧ e = ⟨dep.node, g.nodes.length, dep.spec, dep.ty⟩) := by
  obtain ⟨x, k, hx, hk, he⟩ := hl
  rw [placeAt_edges] at he
  rcases placeAt_cases g dep nd t hp.lt htl hx with ⟨_, y, hy, rfl⟩ | ⟨rfl, rfl⟩
  · simp only [placeUpd] at hk
    have old : y.deps.get? n = some k → Linked g i n e := by
      intro hk
      obtain ⟨e', _, h1, _⟩ := h.depReg i y n k hy hk
      rw [List.getElem?_append_left (List.getElem?_eq_some_iff.mp h1).1] at he
      exact ⟨y, k, hy, hk, he⟩
    by_cases hid : i = dep.node
    · rw [if_pos hid, IMap.get?_insert] at hk
      by_cases hnm : n = dep.name
      · rw [if_pos hnm] at hk; cases hk
        simp at he
        exact Or.inr ⟨hid, hnm, he.symm⟩
      · rw [if_neg hnm] at hk; exact Or.inl (old hk)
    · rw [if_neg hid] at hk; exact Or.inl (old hk)
  · obtain ⟨_, _, _, _, hdeps, _⟩ := nodeNew_spec hn
    simp [hdeps] at hk

theorem linked_edge {g : Graph N P S} (h : GInv env g) {i : Nat} {n : N} {e : Edge S} (hl : Linked g i n e) :
    e ∈ g.edges ∧ e.src = i ∧ ∃ dn, g.nodes[e.dst]? = some dn ∧ dn.name = n := by
  obtain ⟨x, k, hx, hk, he⟩ := hl
  obtain ⟨e', dn, h1, h2, h3, h4⟩ := h.depReg i x n k hx hk
  rw [he] at h1; cases h1
  exact ⟨List.mem_of_getElem? he, h2, dn, h3, h4⟩

/-- Placing a package keeps all links intact unless it shadows one. -/
theorem placeAt_linksLoad {m : Manifest N} (h : GInv env g) (hp : DepPre g dep)
    (hs : satisfyDependency env g dep = none)
    (hn : Node.new env.parse dep.name pkg m false = some nd) (ht : Target env g dep pkg t)
    (hsh : ¬ Shadows g dep) (hll : LinksLoad g) : LinksLoad (placeAt g dep nd t) := by
  intro i n e hl
  rcases placeAt_linked_old h hp ht.lt hn hl with hl | ⟨rfl, rfl, rfl⟩
  · refine loads_keep (hll i n e hl) ?_
    rintro ⟨rfl, hw, hld⟩
    obtain ⟨he, hsrc, dn, hdn, _⟩ := linked_edge h hl
    have hldD : NodeLoads g dep.node dep.name e.dst := loads_along ht.within ht.clear hld
    rcases ht.free with hf | hf
    · subst hf; exact hsh ⟨e, he, hsrc ▸ hw, hld⟩
    · have hns := satisfy_none h hs ((resolveDep_iff h.ord _ _ _).mpr hldD) hdn
      have : conflictBelow env g t dep.name dep.spec = true :=
        (conflictBelow_iff h _ _ _).mpr ⟨e.dst, dn, e, (resolveDep_iff h.ord _ _ _).mpr hld, hdn, hns, he, rfl, hsrc ▸ hw⟩
      simp [blocked, this] at hf
  · exact loads_new h ht

/-- If it shadows one, that link is broken. -/
theorem placeAt_shadow_breaks (h : GInv env g) (hp : DepPre g dep)
    (hs : satisfyDependency env g dep = none) (ht : Target env g dep pkg t)
    {e : Edge S} (he : e ∈ g.edges) (hw : Within g e.src dep.node) (hld : NodeLoads g dep.node dep.name e.dst) :
    Linked (placeAt g dep nd t) e.src dep.name e ∧ ¬ NodeLoads (placeAt g dep nd t) e.src dep.name e.dst := by
  have hel := h.edge_lt he
  obtain ⟨dn, hdn⟩ : ∃ x, g.nodes[e.dst]? = some x := ⟨_, List.getElem?_eq_getElem hel.2⟩
  have hname : dn.name = dep.name := by
    obtain ⟨yn, hy, hyn⟩ := h.resolve_get ((resolveDep_iff h.ord _ _ _).mpr hld)
    rw [hdn] at hy; cases hy; exact hyn
  obtain ⟨k, hk⟩ := List.getElem?_of_mem he
  obtain ⟨sn, dn', hsn, hdn', hreg, hreq⟩ := h.edgeReg k e hk
  rw [hdn] at hdn'; cases hdn'
  rw [hname] at hreg
  obtain ⟨pn, hpn, hpreq, hpdep⟩ := hp
  have hsne : e.src ≠ dep.node := by
    intro hse; rw [hse, hpn] at hsn; cases hsn; rw [hpdep] at hreg; cases hreg
  constructor
  · refine ⟨_, k, placeAt_get t hsn, ?_, ?_⟩
    · simp only [placeUpd, if_neg hsne]; exact hreg
    · rw [placeAt_edges, List.getElem?_append_left (List.getElem?_eq_some_iff.mp hk).1]; exact hk
  · -- the climb was blocked at the dependent
    have hns := satisfy_none h hs ((resolveDep_iff h.ord _ _ _).mpr hld) hdn
    have hcb : conflictBelow env g dep.node dep.name dep.spec = true :=
      (conflictBelow_iff h _ _ _).mpr ⟨e.dst, dn, e, (resolveDep_iff h.ord _ _ _).mpr hld, hdn, hns, he, rfl, hw⟩
    have htd : t = dep.node := ht.freeIf (by simp [blocked, hcb])
    subst htd
    -- where could `e.dst` be listed?
    obtain ⟨w, hwD, hcw⟩ := resolveDep_holder h.ord ((resolveDep_iff h.ord _ _ _).mpr hld)
    obtain ⟨yn, hyn, hyp, _⟩ := h.child_lt hcw
    have hwne : w ≠ dep.node := by
      intro hwe; subst hwe
      have := ht.clear _ ht.within (.refl hpn)
      rw [this] at hcw; cases hcw
    have key : ∀ i, Within g i dep.node → ¬ NodeLoads (placeAt g dep nd dep.node) i dep.name e.dst := by
      intro i hwi
      generalize hD : dep.node = D at hwi
      induction hwi with
      | @refl i x hx =>
        subst hD
        intro hl
        have := loads_unique hl (loads_new h ht)
        omega
      | @up i p a x hx hxp hwp ih =>
        subst hD
        intro hl
        have hia : i ≠ dep.node := by
          intro hia; subst hia
          have := h.ord _ _ _ hx hxp
          have := within_le h.ord hwp
          omega
        cases hl with
        | here hx' hc' =>
          rw [placeAt_get _ hx] at hx'; cases hx'
          simp only [placeUpd, if_neg hia] at hc'
          obtain ⟨yn', hyn', hyp', _⟩ := h.kid i x _ _ hx hc'
          rw [hyn] at hyn'; cases hyn'
          rw [hyp] at hyp'; cases hyp'
          have h1 : Within g w dep.node := .up hx hxp hwp
          exact hwne (within_antisymm h.ord h1 hwD)
        | up hx' hc' hp' hl' =>
          rw [placeAt_get _ hx] at hx'; cases hx'
          simp only [placeUpd] at hp'
          rw [hxp] at hp'; cases hp'
          exact ih rfl hl'
    exact key _ hw

end
end Oro
