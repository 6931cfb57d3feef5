import Verif.Proofs.GStep

set_option linter.unusedSectionVars false

namespace Oro
variable {N P S : Type} [DecidableEq N] [DecidableEq S]
open Graph

/-- nothing sits inside a package that is still queued -/
def LeafQ (g : Graph N P S) (q : List Nat) : Prop := ∀ i ∈ q, ∀ j, Within g j i → j = i

/-- no link and no other pending requirement strictly inside a package with a pending requirement -/
structure Calm (g : Graph N P S) (ps : List (Dep N S)) : Prop where
  pend : ∀ d ∈ ps, ∀ d' ∈ ps, Within g d'.node d.node → d'.node = d.node
  edges : ∀ d ∈ ps, ∀ e ∈ g.edges, Within g e.src d.node → e.src = d.node

theorem Calm.perm {g : Graph N P S} {p1 p2 : List (Dep N S)} (h : Calm g p1) (hp : ∀ d, d ∈ p2 → d ∈ p1) : Calm g p2 :=
  ⟨fun d hd d' hd' => h.pend d (hp d hd) d' (hp d' hd'), fun d hd => h.edges d (hp d hd)⟩

section
variable {env : Env N P S} {lock : Option (LockTree N P)} {g : Graph N P S} {q : List Nat} {d : Dep N S}
  {rest : List (Dep N S)}

theorem linkAt_within_iff (_ho : g.Ord) {x i a : Nat} : Within (linkAt g d x) i a ↔ Within g i a := by
  refine ⟨?_, linkAt_within⟩
  intro h
  induction h with
  | refl hn => obtain ⟨y, hy, _⟩ := linkAt_inv hn; exact .refl hy
  | up hn hp _ ih => obtain ⟨y, hy, rfl⟩ := linkAt_inv hn; exact .up hy hp ih

theorem not_shadows (hp : DepPre g d) (h : GInv env g) (hc : ∀ e ∈ g.edges, Within g e.src d.node → e.src = d.node) :
    ¬ Shadows g d := by
  rintro ⟨e, he, hw, hl⟩
  have hsrc := hc e he hw
  obtain ⟨k, hk⟩ := List.getElem?_of_mem he
  obtain ⟨nd, dn, h1, h2, h3, h4⟩ := h.edgeReg k e hk
  obtain ⟨yn, hy, hyn⟩ := h.resolve_get ((resolveDep_iff h.ord _ _ _).mpr hl)
  rw [h2] at hy; cases hy
  obtain ⟨pn, hpn, _, hdep⟩ := hp
  rw [hsrc, hpn] at h1; cases h1
  rw [hyn, hdep] at h3; cases h3

theorem Calm.link (h : GInv env g) (hc : Calm g (d :: rest)) (x : Nat) : Calm (linkAt g d x) rest := by
  refine ⟨fun a ha b hb hw => ?_, fun a ha e he hw => ?_⟩
  · exact hc.pend a (List.mem_cons_of_mem _ ha) b (List.mem_cons_of_mem _ hb) ((linkAt_within_iff h.ord).mp hw)
  · rw [linkAt_edges, List.mem_append] at he
    have hw := (linkAt_within_iff h.ord).mp hw
    rcases he with he | he
    · exact hc.edges a (List.mem_cons_of_mem _ ha) e he hw
    · simp only [List.mem_singleton] at he; subst he
      exact hc.pend a (List.mem_cons_of_mem _ ha) d (by simp) hw

theorem LeafQ.link (h : GInv env g) (hl : LeafQ g q) (x : Nat) : LeafQ (linkAt g d x) q :=
  fun i hi j hw => hl i hi j ((linkAt_within_iff h.ord).mp hw)

theorem Calm.place (hi : PInv env g q (d :: rest)) (hc : Calm g (d :: rest)) (nd : Node N P S) {t : Nat}
    (ht : t < g.nodes.length) : Calm (placeAt g d nd t) rest := by
  have h := hi.ginv
  have hd := (hi.pre d (by simp)).lt
  refine ⟨fun a ha b hb hw => ?_, fun a ha e he hw => ?_⟩
  · have hbl := (hi.pre b (List.mem_cons_of_mem _ hb)).lt
    exact hc.pend a (List.mem_cons_of_mem _ ha) b (List.mem_cons_of_mem _ hb)
      ((placeAt_within h.ord d nd t hd ht hbl).mp hw)
  · rw [placeAt_edges, List.mem_append] at he
    rcases he with he | he
    · exact hc.edges a (List.mem_cons_of_mem _ ha) e he
        ((placeAt_within h.ord d nd t hd ht (h.edge_lt he).1).mp hw)
    · simp only [List.mem_singleton] at he; subst he
      exact hc.pend a (List.mem_cons_of_mem _ ha) d (by simp) ((placeAt_within h.ord d nd t hd ht hd).mp hw)

theorem LeafQ.place (hi : PInv env g q (d :: rest)) (hl : LeafQ g q) (nd : Node N P S) {t : Nat}
    (hw : Within g d.node t) (ht : t < g.nodes.length) : LeafQ (placeAt g d nd t) (q ++ [g.nodes.length]) := by
  have h := hi.ginv
  have hd := (hi.pre d (by simp)).lt
  have ho' := placeAt_ord h.ord d nd t hd ht
  intro i hiq j hji
  have hjl := within_lt_length hji
  rw [placeAt_length] at hjl
  have hle := within_le ho' hji
  rcases List.mem_append.mp hiq with hiq | hiq
  · obtain ⟨⟨x, hx, _⟩, hne⟩ := hi.qok i hiq
    have hil := lt_of_get hx
    by_cases hj : j < g.nodes.length
    · exact hl i hiq j ((placeAt_within h.ord d nd t hd ht hj).mp hji)
    · exfalso
      have : j = g.nodes.length := by omega
      subst this
      cases hji with
      | refl => omega
      | up hn hp hup =>
        rw [placeAt_new g d nd t hd ht] at hn; cases hn
        simp only [Option.some.injEq] at hp; subst hp
        have := (placeAt_within h.ord d nd t hd ht ht).mp hup
        have := hl i hiq d.node (within_trans hw this)
        exact hne d (by simp) this
  · simp only [List.mem_singleton] at hiq; subst hiq
    omega

theorem LeafQ.qsub {q q' : List Nat} (h : LeafQ g q) (hp : ∀ i, i ∈ q' → i ∈ q) : LeafQ g q' :=
  fun i hi => h i (hp i hi)

/-- everything about an orderly run -/
structure OInv (env : Env N P S) (s : RState N P S) (extra : List (Dep N S)) : Prop where
  sinv : SInv env s extra
  leaf : LeafQ s.graph s.q
  calm : Calm s.graph (extra ++ s.waiting)
  loads : LinksLoad s.graph

theorem OInv.processReq {s s' : RState N P S} {d : Dep N S} {rest : List (Dep N S)}
    (h : OInv env s (d :: rest)) (hs : processReq env lock s d = .ok s') : OInv env s' rest := by
  have hsi := h.sinv.processReq hs
  have hcp : Calm s.graph (d :: (rest ++ s.waiting)) := h.calm
  have hns : ¬ Shadows s.graph d := not_shadows h.sinv.pre1 h.sinv.pinv.ginv (hcp.edges d (by simp))
  unfold Oro.processReq at hs
  split at hs
  · rename_i x hsd
    cases hs
    obtain ⟨h1, h2, xn, h3, h4⟩ := satisfy_some hsd
    subst h1
    exact ⟨hsi, h.leaf.link h.sinv.pinv.ginv _, hcp.link h.sinv.pinv.ginv _,
      linkAt_linksLoad h.sinv.pinv.ginv h2 h.loads⟩
  · rename_i hsd
    dsimp only at hs
    split at hs
    · cases hs
    · rename_i p ent hv
      split at hs
      · cases hs
      · rename_i r hr
        cases hs
        obtain ⟨nd, t, hn, ht, h1, h2, _⟩ := placeChild_eq h.sinv.pinv.ginv h.sinv.pre1 hsd hr
        refine ⟨hsi, ?_, ?_, ?_⟩
        · show LeafQ r.graph (s.q ++ [r.child])
          rw [h1, h2]; exact h.leaf.place h.sinv.pinv nd ht.within ht.lt
        · show Calm r.graph (rest ++ s.waiting)
          rw [h1]; exact hcp.place (rest := rest ++ s.waiting) h.sinv.pinv nd ht.lt
        · show LinksLoad r.graph
          rw [h1]; exact placeAt_linksLoad h.sinv.pinv.ginv h.sinv.pre1 hsd hn ht hns h.loads
    · cases hs
      refine ⟨hsi, h.leaf, hcp.perm ?_, h.loads⟩
      intro a ha
      simp only [RState.waiting, List.mem_append, List.mem_cons] at ha ⊢
      rcases ha with ha | (ha | ha | ha) | ha
      · exact Or.inr (Or.inl ha)
      · exact Or.inr (Or.inr (Or.inl ha))
      · exact Or.inl ha
      · simp at ha
      · exact Or.inr (Or.inr (Or.inr ha))

theorem OInv.serveDep {s s' : RState N P S} {p : P} {m : Manifest N} {d : Dep N S} {rest : List (Dep N S)}
    (h : OInv env s (d :: rest)) (hf : env.fetch d.spec = some (p, m)) (hs : serveDep env p m s d = .ok s') :
    OInv env s' rest := by
  have hsi := h.sinv.serveDep hf hs
  have hcp : Calm s.graph (d :: (rest ++ s.waiting)) := h.calm
  have hns : ¬ Shadows s.graph d := not_shadows h.sinv.pre1 h.sinv.pinv.ginv (hcp.edges d (by simp))
  unfold Oro.serveDep at hs
  split at hs
  · rename_i x hsd
    cases hs
    obtain ⟨h1, h2, xn, h3, h4⟩ := satisfy_some hsd
    subst h1
    exact ⟨hsi, h.leaf.link h.sinv.pinv.ginv _, hcp.link h.sinv.pinv.ginv _,
      linkAt_linksLoad h.sinv.pinv.ginv h2 h.loads⟩
  · rename_i hsd
    split at hs
    · cases hs
    · rename_i r hr
      cases hs
      obtain ⟨nd, t, hn, ht, h1, h2, _⟩ := placeChild_eq h.sinv.pinv.ginv h.sinv.pre1 hsd hr
      refine ⟨hsi, ?_, ?_, ?_⟩
      · show LeafQ r.graph (s.q ++ [r.child])
        rw [h1, h2]; exact h.leaf.place h.sinv.pinv nd ht.within ht.lt
      · show Calm r.graph (rest ++ s.waiting)
        rw [h1]; exact hcp.place (rest := rest ++ s.waiting) h.sinv.pinv nd ht.lt
      · show LinksLoad r.graph
        rw [h1]; exact placeAt_linksLoad h.sinv.pinv.ginv h.sinv.pre1 hsd hn ht hns h.loads

theorem nodeDeps_node {g : Graph N P S} {i : Nat} {d : Dep N S} (h : d ∈ nodeDeps g i) : d.node = i := by
  unfold nodeDeps at h
  split at h
  · simp at h
  · simp only [List.mem_map] at h; obtain ⟨r, _, rfl⟩ := h; rfl

theorem OInv.pop {s : RState N P S} {i : Nat} {q : List Nat} (h : OInv env s []) (hq : s.q = i :: q)
    (ho : InOrder s .pop) : OInv env { s with q := q } (nodeDeps s.graph i) := by
  have hleaf := h.leaf i (by rw [hq]; simp)
  have ho' : ∀ d ∈ s.waiting, Within s.graph i d.node → d.node = i := ho i (by rw [hq]; simp)
  refine ⟨h.sinv.pop hq, h.leaf.qsub (fun a ha => by rw [hq]; exact List.mem_cons_of_mem _ ha), ?_, h.loads⟩
  have hc : Calm s.graph s.waiting := h.calm
  constructor
  · intro a ha b hb hw
    rcases List.mem_append.mp ha with ha | ha <;> rcases List.mem_append.mp hb with hb | hb
    · rw [nodeDeps_node ha, nodeDeps_node hb]
    · rw [nodeDeps_node ha] at hw ⊢; exact hleaf _ hw
    · rw [nodeDeps_node hb] at hw ⊢; exact (ho' a ha hw).symm
    · exact hc.pend a ha b hb hw
  · intro a ha e he hw
    rcases List.mem_append.mp ha with ha | ha
    · rw [nodeDeps_node ha] at hw ⊢; exact hleaf _ hw
    · exact hc.edges a ha e he hw

theorem OInv.popStep {s s' : RState N P S} (h : OInv env s []) (ho : InOrder s .pop)
    (hs : popStep env lock s = some (.ok s')) : OInv env s' [] := by
  unfold Oro.popStep at hs
  cases hq : s.q with
  | nil => simp [hq] at hs
  | cons i q =>
    simp only [hq, Option.some.injEq] at hs
    exact foldE_inv (I := fun s l => OInv env s l) (fun _ _ _ _ h1 h2 => h1.processReq h2) _ _ _ (h.pop hq ho) hs

theorem inTable_get {f : IMap S (List (Dep N S))} {k : S} {l : List (Dep N S)} (h : f.get? k = some l) {d : Dep N S}
    (hd : d ∈ l) : d ∈ inTable f := by
  exact List.mem_flatMap.mpr ⟨(k, l), IMap.mem_of_get? h, hd⟩

theorem OInv.pullStep {s s' : RState N P S} (h : OInv env s []) (hs : pullStep env s = some s') :
    OInv env s' [] := by
  have hsi := h.sinv.pullStep hs
  unfold Oro.pullStep at hs
  split at hs
  · split at hs
    · cases hs
    · rename_i d chan hch
      split at hs
      · rename_i l hf
        cases hs
        refine ⟨hsi, h.leaf, h.calm.perm ?_, h.loads⟩
        intro a ha
        simp only [List.nil_append, waiting_eq, List.mem_append] at ha ⊢
        rcases ha with ha | ha
        · left; rw [hch]; exact List.mem_cons_of_mem _ ha
        · rcases List.mem_cons.mp ((inTable_insert_some hf).mem_iff.mp ha) with ha | ha
          · left; rw [hch, ha]; simp
          · exact Or.inr ha
      · rename_i hf
        cases hs
        refine ⟨hsi, h.leaf, h.calm.perm ?_, h.loads⟩
        intro a ha
        simp only [List.nil_append, waiting_eq, List.mem_append] at ha ⊢
        rcases ha with ha | ha
        · left; rw [hch]; exact List.mem_cons_of_mem _ ha
        · rcases List.mem_cons.mp ((inTable_insert_none hf).mem_iff.mp ha) with ha | ha
          · left; rw [hch, ha]; simp
          · exact Or.inr ha
  · cases hs

theorem OInv.deliverOne {s s' : RState N P S} {spec : S} (h : OInv env s []) (hm : spec ∈ s.ready)
    (hs : deliverOne env s spec = .ok s') : OInv env s' [] := by
  have hsi := h.sinv.deliverOne hm hs
  unfold Oro.deliverOne at hs
  split at hs
  · cases hs
  · rename_i p m hfe
    dsimp only at hs
    split at hs
    · cases hs; exact ⟨hsi, h.leaf, h.calm, h.loads⟩
    · rename_i deps hf
      obtain ⟨h1, h2, h3⟩ := h.sinv.take hm hf
      rw [if_pos h2] at hs
      refine (foldE_inv (I := fun s l => OInv env s l ∧ ∀ d ∈ l, d.spec = spec)
        (fun s a l s' hI hst => ⟨hI.1.serveDep (by rw [hI.2 a (by simp)]; exact hfe) hst,
          fun d hd => hI.2 d (List.mem_cons_of_mem _ hd)⟩) deps _ _ ⟨⟨h1, h.leaf, h.calm.perm ?_, h.loads⟩, h3⟩ hs).1
      intro a ha
      simp only [List.nil_append, waiting_eq, List.mem_append] at ha ⊢
      rcases ha with ha | ha | ha
      · exact Or.inr (inTable_get hf ha)
      · exact Or.inl ha
      · exact Or.inr ((inTable_erase hf).mem_iff.mpr (List.mem_append_right _ ha))

theorem OInv.deliverStep {s s' : RState N P S} (h : OInv env s [])
    (hs : deliverStep env s = some (.ok s')) : OInv env s' [] := by
  have hsi := h.sinv.deliverStep hs
  unfold Oro.deliverStep at hs
  split at hs
  · split at hs
    · rename_i s1 hf
      cases hs
      have h1 := (foldE_inv (I := fun s l => OInv env s [] ∧ s.ready = l)
        (fun s a l s' h1 h2 => ⟨h1.1.deliverOne (by rw [h1.2]; simp) h2,
          by rw [(deliverOne_ready h2).1, h1.2]; simp⟩) _ _ _ ⟨h, rfl⟩ hf).1
      exact ⟨hsi, h1.leaf.qsub (fun a ha => (sortBy_perm _ _).mem_iff.mp ha), h1.calm, h1.loads⟩
    · cases hs
  · cases hs

theorem OInv.rstep {s s' : RState N P S} {ev : REvent S} (h : OInv env s []) (ho : InOrder s ev)
    (hs : rstep env lock s ev = some (.ok s')) : OInv env s' [] := by
  have hsi := h.sinv.rstep hs
  cases ev with
  | pop => exact h.popStep ho hs
  | pull =>
    simp only [Oro.rstep, Option.map_eq_some_iff] at hs
    obtain ⟨x, h1, h2⟩ := hs
    cases h2
    exact h.pullStep h1
  | complete spec =>
    simp only [Oro.rstep, Option.map_eq_some_iff, completeStep] at hs
    obtain ⟨x, h1, h2⟩ := hs
    cases h2
    split at h1
    · cases h1; exact ⟨hsi, h.leaf, h.calm, h.loads⟩
    · cases h1
  | deliver => exact h.deliverStep hs

theorem OInv.init {root : Node N P S} (hr : IsRoot env root) : OInv env (rinit root) [] := by
  refine ⟨SInv.init hr, ?_, ⟨?_, ?_⟩, ?_⟩
  · intro i hi j hw
    have := within_lt_length hw
    simp [rinit] at hi this; omega
  · intro d hd; simp [rinit, RState.waiting] at hd
  · intro d hd; simp [rinit, RState.waiting] at hd
  · rintro i n e ⟨nd, k, _, _, h3⟩; simp [rinit] at h3

theorem OrderlyReach.oinv {root : Node N P S} (hr : IsRoot env root) {s : RState N P S}
    (h : OrderlyReach env lock root s) : OInv env s [] := by
  induction h with
  | init => exact OInv.init hr
  | step ev _ ho hs ih => exact ih.rstep ho hs

end
end Oro
