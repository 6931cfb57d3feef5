import Verif.Proofs.ResolverInv
/- Every transition of the resolver is a sequence of elementary graph changes (`GStep`); graph-only facts are proved
on these. -/

set_option linter.unusedSectionVars false

namespace Oro
variable {N P S : Type} [DecidableEq N] [DecidableEq S]
open Graph

/-- where a placed package and its manifest may come from -/
def Source (env : Env N P S) (lock : Option (LockTree N P)) (g : Graph N P S) (d : Dep N S) (p : P)
    (m : Manifest N) (tp : Option (List N)) : Prop :=
  (env.fetch d.spec = some (p, m) ∧ tp = none) ∨
  ∃ l ent, lock = some l ∧ satisfyFromLockfile env l g d = some (some (p, ent)) ∧ m = ent.manifest ∧ tp = some ent.path

inductive GStep (env : Env N P S) (lock : Option (LockTree N P)) (g : Graph N P S) : Graph N P S → Prop
  | link (d : Dep N S) {g' : Graph N P S} {x : Nat} : DepPre g d → satisfyDependency env g d = some (g', x) →
      GStep env lock g g'
  | place (d : Dep N S) {p : P} {m : Manifest N} {tp : Option (List N)} {r : Placed N P S} : DepPre g d →
      satisfyDependency env g d = none → Source env lock g d p m tp → placeChild env g d p m tp = some r →
      GStep env lock g r.graph

/-- chains of graph changes, with the graph invariant known at each -/
inductive GChain (env : Env N P S) (lock : Option (LockTree N P)) (g : Graph N P S) : Graph N P S → Prop
  | nil : GChain env lock g g
  | snoc {g1 g2 : Graph N P S} : GChain env lock g g1 → GInv env g1 → GStep env lock g1 g2 → GChain env lock g g2

variable {env : Env N P S} {lock : Option (LockTree N P)}

theorem GChain.trans {g1 g2 g3 : Graph N P S} (h1 : GChain env lock g1 g2) (h2 : GChain env lock g2 g3) :
    GChain env lock g1 g3 := by
  induction h2 with
  | nil => exact h1
  | snoc _ hi hs ih => exact .snoc ih hi hs

theorem lockWalk_sat' {l : LockTree N P} {g : Graph N P S} {d : Dep N S} {p : P} {ent : LockEntry N P}
    (h : satisfyFromLockfile env l g d = some (some (p, ent))) : env.sat p d.spec = true := lockWalk_sat h

theorem Source.ok {g : Graph N P S} {d : Dep N S} {p : P} {m : Manifest N} {tp : Option (List N)}
    (h : Source env lock g d p m tp) : env.sat p d.spec = true ∨ ∃ m, env.fetch d.spec = some (p, m) := by
  rcases h with ⟨h, _⟩ | ⟨l, ent, _, h, _⟩
  · exact Or.inr ⟨m, h⟩
  · exact Or.inl (lockWalk_sat h)

theorem GStep.ginv {g g' : Graph N P S} (h : GInv env g) (hs : GStep env lock g g') : GInv env g' := by
  cases hs with
  | link d hp hsd =>
    obtain ⟨h1, h2, xn, h3, h4⟩ := satisfy_some hsd
    subst h1; exact linkAt_ginv h hp h2 h3 h4
  | place d hp hsd hsrc hr =>
    obtain ⟨nd, t, hn, ht, h1, _, _⟩ := placeChild_eq h hp hsd hr
    rw [h1]; exact placeAt_ginv h hp hn ht hsrc.ok

theorem GChain.ginv {g g' : Graph N P S} (h : GInv env g) (hs : GChain env lock g g') : GInv env g' := by
  cases hs with
  | nil => exact h
  | snoc _ hi hs => exact hs.ginv hi

/-- the elementary change made by a requirement found in a queued node -/
theorem processReq_chain {s s' : RState N P S} {d : Dep N S} (hp : DepPre s.graph d) (hi : GInv env s.graph)
    (hs : processReq env lock s d = .ok s') :
    GChain env lock s.graph s'.graph := by
  unfold Oro.processReq at hs
  split at hs
  · rename_i h; cases hs; exact .snoc .nil hi (.link d hp h)
  · rename_i hsd
    dsimp only at hs
    split at hs
    · cases hs
    · rename_i p ent hv
      split at hs
      · cases hs
      · rename_i r hr
        cases hs
        refine .snoc .nil hi (.place d hp hsd (Or.inr ?_) hr)
        cases lock with
        | none => simp at hv
        | some l => exact ⟨l, ent, rfl, hv, rfl, rfl⟩
    · cases hs; exact .nil

theorem serveDep_chain {s s' : RState N P S} {d : Dep N S} {p : P} {m : Manifest N} (hp : DepPre s.graph d)
    (hi : GInv env s.graph) (hf : env.fetch d.spec = some (p, m)) (hs : serveDep env p m s d = .ok s') :
    GChain env lock s.graph s'.graph := by
  unfold Oro.serveDep at hs
  split at hs
  · rename_i h; cases hs; exact .snoc .nil hi (.link d hp h)
  · rename_i hsd
    split at hs
    · cases hs
    · rename_i r hr
      cases hs
      exact .snoc .nil hi (.place d hp hsd (Or.inl ⟨hf, rfl⟩) hr)

theorem SInv.pre1 {s : RState N P S} {d : Dep N S} {rest : List (Dep N S)} (h : SInv env s (d :: rest)) :
    DepPre s.graph d := h.pinv.pre d (by simp)

theorem popStep_chain {s s' : RState N P S} (h : SInv env s []) (hs : popStep env lock s = some (.ok s')) :
    GChain env lock s.graph s'.graph := by
  unfold Oro.popStep at hs
  cases hq : s.q with
  | nil => simp [hq] at hs
  | cons i q =>
    simp only [hq, Option.some.injEq] at hs
    exact (foldE_inv (I := fun x l => SInv env x l ∧ GChain env lock s.graph x.graph)
      (fun a _ _ _ h1 h2 => ⟨h1.1.processReq h2, h1.2.trans (processReq_chain h1.1.pre1 h1.1.pinv.ginv h2)⟩)
      _ _ _ ⟨h.pop hq, .nil⟩ hs).2

theorem deliverOne_chain {s s' : RState N P S} {spec : S} (h : SInv env s []) (hm : spec ∈ s.ready)
    (hs : deliverOne env s spec = .ok s') : GChain env lock s.graph s'.graph := by
  unfold Oro.deliverOne at hs
  split at hs
  · cases hs
  · rename_i p m hfe
    dsimp only at hs
    split at hs
    · cases hs; exact .nil
    · rename_i deps hf
      obtain ⟨h1, h2, h3⟩ := h.take hm hf
      rw [if_pos h2] at hs
      exact (foldE_inv (I := fun x l => (SInv env x l ∧ GChain env lock s.graph x.graph) ∧ ∀ d ∈ l, d.spec = spec)
        (fun s a l s' hI hst => by
          have hsp : a.spec = spec := hI.2 a (by simp)
          exact ⟨⟨hI.1.1.serveDep (by rw [hsp]; exact hfe) hst,
            hI.1.2.trans (serveDep_chain hI.1.1.pre1 hI.1.1.pinv.ginv (by rw [hsp]; exact hfe) hst)⟩,
            fun d hd => hI.2 d (List.mem_cons_of_mem _ hd)⟩) deps _ _ ⟨⟨h1, .nil⟩, h3⟩ hs).1.2

theorem deliverStep_chain {s s' : RState N P S} (h : SInv env s []) (hs : deliverStep env s = some (.ok s')) :
    GChain env lock s.graph s'.graph := by
  unfold Oro.deliverStep at hs
  split at hs
  · split at hs
    · rename_i s1 hf
      cases hs
      exact (foldE_inv (I := fun x l => (SInv env x [] ∧ x.ready = l) ∧ GChain env lock s.graph x.graph)
        (fun s a l s' h1 h2 => ⟨⟨h1.1.1.deliverOne (by rw [h1.1.2]; simp) h2,
          by rw [(deliverOne_ready h2).1, h1.1.2]; simp⟩,
          h1.2.trans (deliverOne_chain h1.1.1 (by rw [h1.1.2]; simp) h2)⟩) _ _ _ ⟨⟨h, rfl⟩, .nil⟩ hf).2
    · cases hs
  · cases hs

theorem rstep_chain {s s' : RState N P S} {ev : REvent S} (h : SInv env s [])
    (hs : rstep env lock s ev = some (.ok s')) : GChain env lock s.graph s'.graph := by
  cases ev with
  | pop => exact popStep_chain h hs
  | pull =>
    simp only [Oro.rstep, Option.map_eq_some_iff, pullStep] at hs
    obtain ⟨x, h1, h2⟩ := hs
    cases h2
    split at h1
    · split at h1
      · cases h1
      · split at h1 <;> cases h1 <;> exact .nil
    · cases h1
  | complete spec =>
    simp only [Oro.rstep, Option.map_eq_some_iff, completeStep] at hs
    obtain ⟨x, h1, h2⟩ := hs
    cases h2
    split at h1
    · cases h1; exact .nil
    · cases h1
  | deliver => exact deliverStep_chain h hs

theorem RReach.chain {root : Node N P S} (hr : IsRoot env root) {s : RState N P S}
    (h : RReach env lock root s) : GChain env lock (⟨[root], []⟩ : Graph N P S) s.graph := by
  induction h with
  | init => exact .nil
  | step ev h hs ih => exact ih.trans (rstep_chain (h.sinv hr) hs)

/-- induction over all graphs the resolver builds -/
theorem RReach.graph_ind {root : Node N P S} (hr : IsRoot env root) {I : Graph N P S → Prop}
    (h0 : I ⟨[root], []⟩) (hstep : ∀ g g', GInv env g → I g → GStep env lock g g' → I g') {s : RState N P S}
    (h : RReach env lock root s) : I s.graph := by
  have := h.chain hr
  clear h
  generalize s.graph = g at this
  induction this with
  | nil => exact h0
  | snoc _ hi hs ih => exact hstep _ _ hi ih hs

/-! ### things stay where they are -/

theorem Kept.refl (g : Graph N P S) : Kept g g :=
  ⟨fun _ nd h => ⟨nd, h, rfl, rfl, rfl, rfl, fun _ _ h => h⟩, fun _ _ _ h => h⟩

theorem Kept.trans {g1 g2 g3 : Graph N P S} (h1 : Kept g1 g2) (h2 : Kept g2 g3) : Kept g1 g3 := by
  refine ⟨?_, fun i n e h => h2.2 i n e (h1.2 i n e h)⟩
  intro i nd h
  obtain ⟨n2, a, b, c, d, e, f⟩ := h1.1 i nd h
  obtain ⟨n3, a', b', c', d', e', f'⟩ := h2.1 i n2 a
  exact ⟨n3, a', b'.trans b, c'.trans c, d'.trans d, e'.trans e, fun n c h => f' n c (f n c h)⟩

theorem linked_effect {g g' : Graph N P S} {d : Dep N S} (hp : DepPre g d) (he : LinkEffect g g' d) {i : Nat} {n : N}
    {e : Edge S} (h : Linked g i n e) : Linked g' i n e := by
  obtain ⟨nd, k, h1, h2, h3⟩ := h
  obtain ⟨nd', a, _, _, _, _, hdeps⟩ := he.old i nd h1
  obtain ⟨e', hed, _⟩ := he.edge
  refine ⟨nd', k, a, ?_, ?_⟩
  · rw [hdeps]
    split
    · rename_i hi
      rw [IMap.get?_insert, if_neg]
      · exact h2
      · rintro rfl
        subst hi
        obtain ⟨x, hx, _, hnone⟩ := hp
        rw [h1] at hx; cases hx
        rw [h2] at hnone; cases hnone
    · exact h2
  · rw [hed, List.getElem?_append_left (List.getElem?_eq_some_iff.mp h3).1]; exact h3

theorem linked_new {g g' : Graph N P S} {d : Dep N S} (hp : DepPre g d) (he : LinkEffect g g' d) :
    ∃ e, Linked g' d.node d.name e ∧ e.spec = d.spec ∧ e.ty = d.ty ∧ e.src = d.node := by
  obtain ⟨x, hx, _, hnone⟩ := hp
  obtain ⟨nd', a, _, _, _, _, hdeps⟩ := he.old _ _ hx
  obtain ⟨e, hed, h1, h2, h3⟩ := he.edge
  refine ⟨e, ⟨nd', g.edges.length, a, ?_, ?_⟩, h2, h3, h1⟩
  · rw [hdeps, if_pos rfl, IMap.get?_insert_self]
  · rw [hed]; simp

theorem GStep.kept {g g' : Graph N P S} (h : GInv env g) (hs : GStep env lock g g') : Kept g g' := by
  cases hs with
  | link d hp hsd =>
    obtain ⟨h1, h2, xn, h3, h4⟩ := satisfy_some hsd
    subst h1
    exact ⟨fun i nd hi => ⟨_, linkAt_get hi, rfl, rfl, rfl, rfl, fun _ _ h => h⟩,
      fun _ _ _ hl => linked_effect hp linkAt_effect hl⟩
  | place d hp hsd hsrc hr =>
    obtain ⟨nd, t, hn, ht, h1, _, _⟩ := placeChild_eq h hp hsd hr
    rw [h1]
    refine ⟨fun i nd hi => ⟨_, placeAt_get t hi, rfl, rfl, rfl, rfl, ?_⟩,
      fun _ _ _ hl => linked_effect hp placeAt_effect hl⟩
    intro n c hc
    simp only [placeUpd]
    split
    · rename_i hit
      subst hit
      rw [IMap.get?_insert, if_neg]
      · exact hc
      · rintro rfl
        have := ht.clear i ht.within (.refl hi)
        rw [child?_eq hi, hc] at this; cases this
    · exact hc

theorem GChain.kept {g g' : Graph N P S} (hs : GChain env lock g g') : Kept g g' := by
  induction hs with
  | nil => exact Kept.refl _
  | snoc _ hi hs ih => exact ih.trans (hs.kept hi)

/-! ### locations -/

theorem nodePath_root {g : Graph N P S} {nd : Node N P S} (h : g.nodes[0]? = some nd) :
    g.nodePath 0 = [] := by
  have : ∃ l, g.ancestors 0 = 0 :: l := by simp [ancestors, ancs, h]
  obtain ⟨l, hl⟩ := this
  simp [nodePath, hl]

theorem nodePath_inside {g : Graph N P S} (ho : g.Ord) {i p : Nat} {nd : Node N P S} (h : g.nodes[i]? = some nd)
    (hp : nd.parent = some p) : g.nodePath i = g.nodePath p ++ [nd.name] := by
  have h0 : i ≠ 0 := by have := ho i nd p h hp; omega
  simp [nodePath, ancestors_up ho h hp, h0, h]

theorem locatedAt_iff {g : Graph N P S} (h : FolderTree g) (ho : g.Ord) {i : Nat} {π : List N} :
    LocatedAt g i π ↔ (∃ nd, g.nodes[i]? = some nd) ∧ g.nodePath i = π := by
  constructor
  · intro hl
    induction hl with
    | root h0 => exact ⟨⟨_, h0⟩, nodePath_root h0⟩
    | inside hn hp _ ih => exact ⟨⟨_, hn⟩, by rw [nodePath_inside ho hn hp, ih.2]⟩
  · rintro ⟨⟨nd, hn⟩, rfl⟩
    induction i using Nat.strongRecOn generalizing nd with
    | _ i ih =>
      by_cases h0 : i = 0
      · subst h0; rw [nodePath_root hn]; exact .root hn
      · obtain ⟨p, pn, hp, hpn, _⟩ := h.listed i nd hn h0
        rw [nodePath_inside ho hn hp]
        exact .inside hn hp (ih p (ho i nd p hn hp) pn hpn)

theorem locatedAt_inj {g : Graph N P S} (h : FolderTree g) {i j : Nat} {π : List N} (h1 : LocatedAt g i π)
    (h2 : LocatedAt g j π) : i = j := by
  induction h1 generalizing j with
  | root _ =>
    generalize hπ : ([] : List N) = π at h2
    cases h2 with
    | root => rfl
    | inside _ _ _ => simp at hπ
  | @inside i p π nd hn hp _ ih =>
    generalize hπ : π ++ [nd.name] = π' at h2
    cases h2 with
    | root => simp at hπ
    | @inside j p' π'' nd' hn' hp' hl' =>
      have hinj := List.append_inj hπ (by have := congrArg List.length hπ; simp at this; exact this)
      obtain ⟨e1, e2⟩ := hinj
      subst e1
      have := ih hl'
      subst this
      simp only [List.cons.injEq, and_true] at e2
      have i0 : i ≠ 0 := by
        rintro rfl
        obtain ⟨r, hr, hrp⟩ := h.root
        rw [hn] at hr; cases hr; rw [hp] at hrp; cases hrp
      have j0 : j ≠ 0 := by
        rintro rfl
        obtain ⟨r, hr, hrp⟩ := h.root
        rw [hn'] at hr; cases hr; rw [hp'] at hrp; cases hrp
      obtain ⟨q, qn, hq, hqn, hqc⟩ := h.listed i nd hn i0
      obtain ⟨q', qn', hq', hqn', hqc'⟩ := h.listed j nd' hn' j0
      rw [hp] at hq; cases hq
      rw [hp'] at hq'; cases hq'
      rw [hqn] at hqn'; cases hqn'
      rw [e2] at hqc
      rw [hqc] at hqc'; cases hqc'
      rfl

/-! ### the hazard-free case -/

/-- If the step's requirement does not shadow, links keep loading. -/
theorem GStep.linksLoad {g g' : Graph N P S} (h : GInv env g) (hs : GStep env lock g g')
    (hsh : ∀ d, DepPre g d → satisfyDependency env g d = none → ¬ Shadows g d) (hll : LinksLoad g) : LinksLoad g' := by
  cases hs with
  | link d hp hsd =>
    obtain ⟨h1, h2, xn, h3, h4⟩ := satisfy_some hsd
    subst h1; exact linkAt_linksLoad h h2 hll
  | place d hp hsd hsrc hr =>
    obtain ⟨nd, t, hn, ht, h1, _, _⟩ := placeChild_eq h hp hsd hr
    rw [h1]; exact placeAt_linksLoad h hp hsd hn ht (hsh d hp hsd) hll

end Oro
