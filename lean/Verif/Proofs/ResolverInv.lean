import Verif.Proofs.SatisfyKeeps

set_option linter.unusedSectionVars false

namespace Oro
variable {N P S : Type} [DecidableEq N] [DecidableEq S]
open Graph

/-- key identifying a requirement -/
def Dep.key (d : Dep N S) : Nat × N := (d.node, d.name)

/-- graph, queue and pending requirements fit together -/
structure PInv (env : Env N P S) (g : Graph N P S) (q : List Nat) (pend : List (Dep N S)) : Prop where
  ginv : GInv env g
  pre : ∀ d ∈ pend, DepPre g d
  pnd : (pend.map Dep.key).Nodup
  qnd : q.Nodup
  qok : ∀ i ∈ q, (∃ nd, g.nodes[i]? = some nd ∧ nd.deps = []) ∧ ∀ d ∈ pend, d.node ≠ i
  cover : ∀ (i : Nat) (nd : Node N P S) (n : N) (v : S × DepType), g.nodes[i]? = some nd → nd.reqs.get? n = some v →
    i ∈ q ∨ (∃ k, nd.deps.get? n = some k) ∨ ∃ d ∈ pend, d.node = i ∧ d.name = n

theorem PInv.perm {env : Env N P S} {g : Graph N P S} {q : List Nat} {p1 p2 : List (Dep N S)}
    (h : PInv env g q p1) (hp : p1.Perm p2) : PInv env g q p2 where
  ginv := h.ginv
  pre := fun d hd => h.pre d (hp.mem_iff.mpr hd)
  pnd := ((hp.map Dep.key).nodup_iff).mp h.pnd
  qnd := h.qnd
  qok := fun i hi => ⟨(h.qok i hi).1, fun d hd => (h.qok i hi).2 d (hp.mem_iff.mpr hd)⟩
  cover := by
    intro i nd n v h1 h2
    rcases h.cover i nd n v h1 h2 with h | h | ⟨d, hd, h3⟩
    · exact Or.inl h
    · exact Or.inr (Or.inl h)
    · exact Or.inr (Or.inr ⟨d, hp.mem_iff.mp hd, h3⟩)

theorem PInv.qperm {env : Env N P S} {g : Graph N P S} {q1 q2 : List Nat} {p : List (Dep N S)}
    (h : PInv env g q1 p) (hp : q1.Perm q2) : PInv env g q2 p where
  ginv := h.ginv
  pre := h.pre
  pnd := h.pnd
  qnd := hp.nodup_iff.mp h.qnd
  qok := fun i hi => h.qok i (hp.mem_iff.mpr hi)
  cover := by
    intro i nd n v h1 h2
    rcases h.cover i nd n v h1 h2 with h | h
    · exact Or.inl (hp.mem_iff.mp h)
    · exact Or.inr h

/-- how the node list and the queue may grow while one requirement is linked -/
def Grow (g g' : Graph N P S) (q q' : List Nat) : Prop :=
  (g'.nodes.length = g.nodes.length ∧ q' = q) ∨
  (g'.nodes.length = g.nodes.length + 1 ∧ (∃ nd, g'.nodes[g.nodes.length]? = some nd ∧ nd.deps = []) ∧
    q' = q ++ [g.nodes.length])

theorem PInv.link {env : Env N P S} {g g' : Graph N P S} {q q' : List Nat} {d : Dep N S} {rest : List (Dep N S)}
    (h : PInv env g q (d :: rest)) (hg : GInv env g') (he : LinkEffect g g' d) (hgr : Grow g g' q q') :
    PInv env g' q' rest := by
  have hnd := h.pnd
  simp only [List.map_cons, List.nodup_cons] at hnd
  have back : ∀ {j : Nat} {nd' : Node N P S}, g'.nodes[j]? = some nd' → j < g.nodes.length →
      ∃ nd, g.nodes[j]? = some nd ∧ nd'.name = nd.name ∧ nd'.pkg = nd.pkg ∧ nd'.reqs = nd.reqs ∧
        nd'.deps = if j = d.node then nd.deps.insert d.name g.edges.length else nd.deps := by
    intro j nd' hj hl
    obtain ⟨nd, hnd⟩ : ∃ x, g.nodes[j]? = some x := ⟨_, List.getElem?_eq_getElem hl⟩
    obtain ⟨x, h1, h2, h3, h4, _, h5⟩ := he.old j nd hnd
    rw [hj] at h1; cases h1
    exact ⟨nd, hnd, h2, h3, h4, h5⟩
  have hsub : ∀ i ∈ q, i ∈ q' := by
    intro i hi
    rcases hgr with ⟨_, h⟩ | ⟨_, _, h⟩ <;> subst h <;> simp [hi]
  refine ⟨hg, ?_, hnd.2, ?_, ?_, ?_⟩
  · intro x hx
    obtain ⟨nd, h1, h2, h3⟩ := h.pre x (List.mem_cons_of_mem _ hx)
    obtain ⟨nd', h4, _, _, h5, _, h6⟩ := he.old _ _ h1
    refine ⟨nd', h4, by rw [h5]; exact h2, ?_⟩
    rw [h6]
    by_cases hxn : x.node = d.node
    · rw [if_pos hxn, IMap.get?_insert]
      have : x.name ≠ d.name := by
        intro hne
        apply hnd.1
        rw [List.mem_map]
        exact ⟨x, hx, by simp [Dep.key, hxn, hne]⟩
      rw [if_neg this]; exact h3
    · rw [if_neg hxn]; exact h3
  · rcases hgr with ⟨_, hq⟩ | ⟨_, _, hq⟩
    · subst hq; exact h.qnd
    · subst hq
      rw [List.nodup_append]
      refine ⟨h.qnd, by simp, ?_⟩
      intro a ha b hb
      simp at hb; subst hb
      obtain ⟨⟨nd, h1, _⟩, _⟩ := h.qok a ha
      have := lt_of_get h1; omega
  · intro i hi
    have key : ∀ i ∈ q, (∃ nd, g'.nodes[i]? = some nd ∧ nd.deps = []) ∧ ∀ d ∈ rest, d.node ≠ i := by
      intro i hi
      obtain ⟨⟨nd, h1, h2⟩, h3⟩ := h.qok i hi
      obtain ⟨nd', h4, _, _, _, _, h6⟩ := he.old _ _ h1
      have hne : i ≠ d.node := fun e => h3 d (by simp) e.symm
      rw [if_neg hne] at h6
      exact ⟨⟨nd', h4, by rw [h6]; exact h2⟩, fun x hx => h3 x (List.mem_cons_of_mem _ hx)⟩
    rcases hgr with ⟨_, hq⟩ | ⟨_, hnew, hq⟩
    · subst hq; exact key i hi
    · subst hq
      rcases List.mem_append.mp hi with hi | hi
      · exact key i hi
      · simp at hi; subst hi
        refine ⟨hnew, ?_⟩
        intro x hx
        have := (h.pre x (List.mem_cons_of_mem _ hx)).lt
        omega
  · intro i nd' n v hi hr
    by_cases hl : i < g.nodes.length
    · obtain ⟨nd, h1, _, _, h4, h5⟩ := back hi hl
      rw [h4] at hr
      rcases h.cover i nd n v h1 hr with h | ⟨k, h⟩ | ⟨x, hx, h2, h3⟩
      · exact Or.inl (hsub i h)
      · right; left
        rw [h5]
        by_cases hid : i = d.node
        · rw [if_pos hid, IMap.get?_insert]
          by_cases hn : n = d.name
          · exact ⟨_, by rw [if_pos hn]⟩
          · rw [if_neg hn]; exact ⟨k, h⟩
        · rw [if_neg hid]; exact ⟨k, h⟩
      · rcases List.mem_cons.mp hx with hx | hx
        · subst hx
          right; left
          rw [h5, if_pos h2.symm, ← h3, IMap.get?_insert_self]; exact ⟨_, rfl⟩
        · exact Or.inr (Or.inr ⟨x, hx, h2, h3⟩)
    · left
      have hlt := lt_of_get hi
      rcases hgr with ⟨hlen, _⟩ | ⟨hlen, _, hq⟩
      · omega
      · have : i = g.nodes.length := by omega
        subst hq; subst this; simp

/-! ### one requirement -/

section
variable {env : Env N P S} {g : Graph N P S} {q : List Nat} {d : Dep N S} {rest : List (Dep N S)}

theorem PInv.satisfy (h : PInv env g q (d :: rest)) {g' : Graph N P S} {x : Nat}
    (hs : satisfyDependency env g d = some (g', x)) : PInv env g' q rest := by
  obtain ⟨h1, h2, xn, h3, h4⟩ := satisfy_some hs
  subst h1
  exact h.link (linkAt_ginv h.ginv (h.pre d (by simp)) h2 h3 h4) linkAt_effect
    (Or.inl ⟨linkAt_length, rfl⟩)

theorem PInv.place (h : PInv env g q (d :: rest)) {pkg : P} {m : Manifest N} {tp : Option (List N)}
    {r : Placed N P S} (hs : satisfyDependency env g d = none) (hr : placeChild env g d pkg m tp = some r)
    (hok : env.sat pkg d.spec = true ∨ ∃ m, env.fetch d.spec = some (pkg, m)) :
    PInv env r.graph (q ++ [r.child]) rest ∧ r.clobbered = none := by
  have hp := h.pre d (by simp)
  obtain ⟨nd, t, hn, ht, h1, h2, h3⟩ := placeChild_eq h.ginv hp hs hr
  have htl := ht.lt
  obtain ⟨tn, htn⟩ := within_exists ht.within
  refine ⟨?_, by rw [h3]; exact ht.clear t ht.within (.refl htn)⟩
  rw [h1, h2]
  refine h.link (placeAt_ginv h.ginv hp hn ht hok) placeAt_effect (Or.inr ⟨placeAt_length _ _ _ _, ?_, rfl⟩)
  exact ⟨_, placeAt_new g d nd t hp.lt htl, (nodeNew_spec hn).2.2.2.2.1⟩

end

/-! ### the fetch table -/

/-- everything waiting in the fetch table -/
def inTable (f : IMap S (List (Dep N S))) : List (Dep N S) := f.flatMap (·.2)

theorem inTable_insert_none {f : IMap S (List (Dep N S))} {k : S} {d : Dep N S} (h : f.get? k = none) :
    (inTable (f.insert k [d])).Perm (d :: inTable f) := by
  induction f with
  | nil => simp [IMap.insert, inTable]
  | cons a f ih =>
    obtain ⟨k', l⟩ := a
    by_cases hk : k' = k
    · simp [IMap.get?, hk] at h
    · simp only [IMap.get?, hk, if_false] at h
      simp only [IMap.insert, hk, if_false, inTable, List.flatMap_cons]
      exact ((ih h).append_left l).trans (List.perm_middle)

theorem inTable_insert_some {f : IMap S (List (Dep N S))} {k : S} {d : Dep N S} {l : List (Dep N S)}
    (h : f.get? k = some l) : (inTable (f.insert k (l ++ [d]))).Perm (d :: inTable f) := by
  induction f with
  | nil => simp at h
  | cons a f ih =>
    obtain ⟨k', l'⟩ := a
    by_cases hk : k' = k
    · simp only [IMap.get?, hk, if_true, Option.some.injEq] at h
      subst h
      simp only [IMap.insert, hk, if_true, inTable, List.flatMap_cons, List.append_assoc]
      exact List.perm_middle
    · simp only [IMap.get?, hk, if_false] at h
      simp only [IMap.insert, hk, if_false, inTable, List.flatMap_cons]
      exact ((ih h).append_left l').trans (List.perm_middle)

theorem inTable_erase {f : IMap S (List (Dep N S))} {k : S} {l : List (Dep N S)}
    (h : f.get? k = some l) : (inTable f).Perm (l ++ inTable (f.erase k)) := by
  induction f with
  | nil => simp at h
  | cons a f ih =>
    obtain ⟨k', l'⟩ := a
    by_cases hk : k' = k
    · simp only [IMap.get?, hk, if_true, Option.some.injEq] at h
      subst h
      simp [IMap.erase, hk, inTable]
    · simp only [IMap.get?, hk, if_false] at h
      simp only [IMap.erase, hk, if_false, inTable, List.flatMap_cons]
      refine ((ih h).append_left l').trans ?_
      rw [← List.append_assoc, ← List.append_assoc]
      exact List.perm_append_comm.append_right _

theorem keys_erase_perm {f : IMap S (List (Dep N S))} {k : S} {l : List (Dep N S)} (hwf : f.WF)
    (h : f.get? k = some l) : (f.keys.erase k).Perm (f.erase k).keys := by
  induction f with
  | nil => simp at h
  | cons a f ih =>
    obtain ⟨k', l'⟩ := a
    by_cases hk : k' = k
    · simp [IMap.erase, hk]
    · simp only [IMap.get?, hk, if_false] at h
      simp only [IMap.WF, IMap.keys_cons, List.nodup_cons] at hwf
      simp only [IMap.erase, hk, if_false, IMap.keys_cons]
      rw [List.erase_cons_tail (by simpa using hk)]
      exact (ih hwf.2 h).cons _

/-- complete invariant of the resolver; `extra` are requirements currently being worked on -/
structure SInv (env : Env N P S) (s : RState N P S) (extra : List (Dep N S)) : Prop where
  pinv : PInv env s.graph s.q (extra ++ s.waiting)
  fwf : s.fetches.WF
  fok : ∀ kl ∈ s.fetches, kl.2 ≠ [] ∧ ∀ d ∈ kl.2, d.spec = kl.1
  act : (s.active ++ s.ready).Perm s.fetches.keys
  cnt : s.inFlight = s.waiting.length
  clob : s.clobbers = 0

theorem waiting_eq (s : RState N P S) : s.waiting = s.chan ++ inTable s.fetches := rfl

section
variable {env : Env N P S} {lock : Option (LockTree N P)}

theorem lockProbe_sat {l : LockTree N P} {name : N} {spec : S} {rp : List N} {p : P} {ent : LockEntry N P}
    (h : lockProbe env l name spec rp = some (some (some (p, ent)))) :
    env.sat p spec = true ∧ ent.pkg = some (some p) ∧ l.get? ((name :: rp).reverse) = some ent := by
  unfold lockProbe at h
  cases hg : l.get? ((name :: rp).reverse) with
  | none => rw [hg] at h; cases h
  | some e =>
    rw [hg] at h
    dsimp only at h
    cases hp : e.pkg with
    | none => simp [hp] at h
    | some o =>
      cases o with
      | none => simp [hp] at h
      | some p' =>
        by_cases hsat : env.sat p' spec = true
        · simp only [hp, hsat, if_true, Option.some.injEq, Prod.mk.injEq] at h
          obtain ⟨h1, h2⟩ := h; subst h1; subst h2; exact ⟨hsat, hp, rfl⟩
        · simp [hp, hsat] at h

theorem lockWalk_sat {l : LockTree N P} {name : N} {spec : S} {rp : List N} {p : P} {ent : LockEntry N P}
    (h : lockWalk env l name spec rp = some (some (p, ent))) : env.sat p spec = true := by
  induction rp with
  | nil =>
    unfold lockWalk at h
    cases hp : lockProbe env l name spec [] with
    | none => simp [hp] at h
    | some r => simp only [hp, Option.getD_some] at h; subst h; exact (lockProbe_sat hp).1
  | cons x r ih =>
    unfold lockWalk at h
    cases hp : lockProbe env l name spec (x :: r) with
    | none => simp only [hp] at h; exact ih h
    | some r => simp only [hp] at h; subst h; exact (lockProbe_sat hp).1

theorem SInv.processReq {s s' : RState N P S} {d : Dep N S} {rest : List (Dep N S)}
    (h : SInv env s (d :: rest)) (hs : processReq env lock s d = .ok s') : SInv env s' rest := by
  unfold Oro.processReq at hs
  cases hsd : satisfyDependency env s.graph d with
  | some r =>
    obtain ⟨g', x⟩ := r
    simp only [hsd, Except.ok.injEq] at hs
    subst hs
    exact ⟨h.pinv.satisfy hsd, h.fwf, h.fok, h.act, h.cnt, h.clob⟩
  | none =>
    rw [hsd] at hs
    dsimp only at hs
    split at hs
    · cases hs
    · rename_i p ent hv
      cases hpl : placeChild env s.graph d p ent.manifest (some ent.path) with
      | none => rw [hpl] at hs; cases hs
      | some r =>
        rw [hpl] at hs
        simp only [Except.ok.injEq] at hs
        subst hs
        have hsat : env.sat p d.spec = true := by
          cases lock with
          | none => simp at hv
          | some l => exact lockWalk_sat hv
        obtain ⟨h1, h2⟩ := h.pinv.place hsd hpl (Or.inl hsat)
        exact ⟨h1, h.fwf, h.fok, h.act, h.cnt, by simp [h2, h.clob]⟩
    · simp only [Except.ok.injEq] at hs
      subst hs
      refine ⟨?_, h.fwf, h.fok, h.act, ?_, h.clob⟩
      · refine h.pinv.perm ?_
        simp only [RState.waiting, List.cons_append]
        refine (List.perm_middle (l₁ := rest) (a := d)).symm.trans ?_
        refine List.Perm.append_left rest ?_
        rw [List.append_assoc]
        exact (List.perm_middle (l₁ := s.chan) (a := d) (l₂ := _)).symm
      · have := h.cnt; simp only [RState.waiting, List.length_append] at this ⊢; simp only [List.length_cons, List.length_nil]; omega

theorem foldE_inv {σ α ε : Type} {f : σ → α → Except ε σ} {I : σ → List α → Prop}
    (hstep : ∀ s a l s', I s (a :: l) → f s a = .ok s' → I s' l) :
    ∀ l s s', I s l → foldE f s l = .ok s' → I s' [] := by
  intro l
  induction l with
  | nil => intro s s' h hf; simp [foldE] at hf; subst hf; exact h
  | cons a l ih =>
    intro s s' h hf
    simp only [foldE] at hf
    cases hfa : f s a with
    | error e => simp [hfa] at hf
    | ok s1 => simp only [hfa] at hf; exact ih s1 s' (hstep s a l s1 h hfa) hf

theorem SInv.pop {s : RState N P S} {i : Nat} {q : List Nat} (h : SInv env s []) (hq : s.q = i :: q) :
    SInv env { s with q := q } (nodeDeps s.graph i) := by
  have hpi := h.pinv
  rw [hq] at hpi
  simp only [List.nil_append] at hpi
  obtain ⟨⟨nd, hn, hdep⟩, hnone⟩ := hpi.qok i (by simp)
  have hnd : nodeDeps s.graph i = nd.reqs.map fun r => ⟨r.1, r.2.1, r.2.2, i⟩ := by simp [nodeDeps, hn]
  have hmem : ∀ d ∈ nodeDeps s.graph i, d.node = i ∧ nd.reqs.get? d.name = some (d.spec, d.ty) := by
    intro d hd
    rw [hnd, List.mem_map] at hd
    obtain ⟨r, hr, rfl⟩ := hd
    exact ⟨rfl, IMap.get?_of_mem (hpi.ginv.wfr i nd hn) hr⟩
  have hqn := hpi.qnd
  rw [List.nodup_cons] at hqn
  refine ⟨⟨hpi.ginv, ?_, ?_, hqn.2, ?_, ?_⟩, h.fwf, h.fok, h.act, h.cnt, h.clob⟩
  · intro d hd
    rcases List.mem_append.mp hd with hd | hd
    · obtain ⟨h1, h2⟩ := hmem d hd
      exact ⟨nd, by rw [h1]; exact hn, h2, by rw [hdep]; rfl⟩
    · exact hpi.pre d hd
  · rw [List.map_append, List.nodup_append]
    refine ⟨?_, hpi.pnd, ?_⟩
    · rw [hnd, List.map_map]
      have hw := hpi.ginv.wfr i nd hn
      unfold IMap.WF IMap.keys at hw
      have : (nd.reqs.map (Dep.key ∘ fun r => (⟨r.1, r.2.1, r.2.2, i⟩ : Dep N S))) =
          (nd.reqs.map Prod.fst).map (fun n => (i, n)) := by
        rw [List.map_map]; rfl
      rw [this, List.Nodup, List.pairwise_map]
      exact List.Pairwise.imp (fun hab he => hab (by injection he)) hw
    · intro a ha b hb hab
      rw [List.mem_map] at ha hb
      obtain ⟨d1, hd1, rfl⟩ := ha
      obtain ⟨d2, hd2, rfl⟩ := hb
      have h1 := (hmem d1 hd1).1
      have h2 := hnone d2 hd2
      simp only [Dep.key, Prod.mk.injEq] at hab
      exact h2 (by rw [← hab.1, h1])
  · intro j hj
    obtain ⟨h1, h2⟩ := hpi.qok j (List.mem_cons_of_mem _ hj)
    refine ⟨h1, ?_⟩
    intro d hd
    rcases List.mem_append.mp hd with hd | hd
    · rw [(hmem d hd).1]
      intro e; subst e; exact hqn.1 hj
    · exact h2 d hd
  · intro j jd n v hj hr
    rcases hpi.cover j jd n v hj hr with h1 | h1 | ⟨d, hd, h1⟩
    · rcases List.mem_cons.mp h1 with h1 | h1
      · subst h1
        rw [hn] at hj; cases hj
        right; right
        refine ⟨⟨n, v.1, v.2, j⟩, List.mem_append_left _ ?_, rfl, rfl⟩
        rw [hnd, List.mem_map]
        exact ⟨(n, v), IMap.mem_of_get? hr, rfl⟩
      · exact Or.inl h1
    · exact Or.inr (Or.inl h1)
    · exact Or.inr (Or.inr ⟨d, List.mem_append_right _ hd, h1⟩)

theorem SInv.popStep {s s' : RState N P S} (h : SInv env s []) (hs : popStep env lock s = some (.ok s')) :
    SInv env s' [] := by
  unfold Oro.popStep at hs
  cases hq : s.q with
  | nil => simp [hq] at hs
  | cons i q =>
    simp only [hq, Option.some.injEq] at hs
    exact foldE_inv (I := fun s l => SInv env s l) (fun _ _ _ _ h1 h2 => h1.processReq h2) _ _ _ (h.pop hq) hs

theorem SInv.pullStep {s s' : RState N P S} (h : SInv env s []) (hs : pullStep env s = some s') :
    SInv env s' [] := by
  unfold Oro.pullStep at hs
  split at hs
  · cases hc : s.chan with
    | nil => simp [hc] at hs
    | cons d chan =>
      simp only [hc] at hs
      cases hf : s.fetches.get? d.spec with
      | some l =>
        simp only [hf, Option.some.injEq] at hs
        subst hs
        have hperm : (s.waiting).Perm (chan ++ inTable (s.fetches.insert d.spec (l ++ [d]))) := by
          rw [waiting_eq, hc, List.cons_append]
          exact List.perm_middle.symm.trans ((inTable_insert_some hf).symm.append_left chan)
        refine ⟨h.pinv.perm hperm, IMap.wf_insert h.fwf _ _, ?_, ?_, ?_, h.clob⟩
        · intro kl hkl
          rcases IMap.mem_insert hkl with rfl | hkl
          · refine ⟨by simp, ?_⟩
            intro x hx
            rcases List.mem_append.mp hx with hx | hx
            · exact (h.fok _ (IMap.mem_of_get? hf)).2 x hx
            · simp at hx; subst hx; rfl
          · exact h.fok kl hkl
        · have hk : d.spec ∈ s.fetches.keys := IMap.mem_keys_of_mem (IMap.mem_of_get? hf)
          simp only [IMap.keys_insert, hk, if_true]; exact h.act
        · have := h.cnt; rw [hperm.length_eq] at this; exact this
      | none =>
        simp only [hf, Option.some.injEq] at hs
        subst hs
        have hperm : (s.waiting).Perm (chan ++ inTable (s.fetches.insert d.spec [d])) := by
          rw [waiting_eq, hc, List.cons_append]
          exact List.perm_middle.symm.trans ((inTable_insert_none hf).symm.append_left chan)
        refine ⟨h.pinv.perm hperm, IMap.wf_insert h.fwf _ _, ?_, ?_, ?_, h.clob⟩
        · intro kl hkl
          rcases IMap.mem_insert hkl with rfl | hkl
          · simp
          · exact h.fok kl hkl
        · have hk : d.spec ∉ s.fetches.keys := (IMap.get?_eq_none_iff _ _).mp hf
          simp only [IMap.keys_insert, hk, if_false]
          refine List.Perm.trans ?_ (h.act.append_right _)
          rw [List.append_assoc, List.append_assoc]
          exact List.perm_append_comm.append_left _
        · have := h.cnt; rw [hperm.length_eq] at this; exact this
  · cases hs

theorem SInv.serveDep {s s' : RState N P S} {p : P} {m : Manifest N} {d : Dep N S} {rest : List (Dep N S)}
    (h : SInv env s (d :: rest)) (hf : env.fetch d.spec = some (p, m)) (hs : serveDep env p m s d = .ok s') :
    SInv env s' rest := by
  unfold Oro.serveDep at hs
  cases hsd : satisfyDependency env s.graph d with
  | some r =>
    obtain ⟨g', x⟩ := r
    simp only [hsd, Except.ok.injEq] at hs
    subst hs
    exact ⟨h.pinv.satisfy hsd, h.fwf, h.fok, h.act, h.cnt, h.clob⟩
  | none =>
    simp only [hsd] at hs
    cases hpl : placeChild env s.graph d p m none with
    | none => simp [hpl] at hs
    | some r =>
      simp only [hpl, Except.ok.injEq] at hs
      subst hs
      obtain ⟨h1, h2⟩ := h.pinv.place hsd hpl (Or.inr ⟨m, hf⟩)
      exact ⟨h1, h.fwf, h.fok, h.act, h.cnt, by simp [h2, h.clob]⟩

/-- state between taking a finished fetch out of the table and serving its requirements -/
theorem SInv.take {s : RState N P S} {spec : S} {deps : List (Dep N S)} (h : SInv env s [])
    (hm : spec ∈ s.ready) (hf : s.fetches.get? spec = some deps) :
    SInv env { s with ready := s.ready.erase spec, fetches := s.fetches.erase spec,
                      inFlight := s.inFlight - deps.length } deps ∧ deps.length ≤ s.inFlight ∧
      ∀ d ∈ deps, d.spec = spec := by
  have hperm := inTable_erase hf
  have hw : s.waiting.Perm (deps ++ (s.chan ++ inTable (s.fetches.erase spec))) := by
    rw [waiting_eq]
    refine (hperm.append_left s.chan).trans ?_
    rw [← List.append_assoc, ← List.append_assoc]
    exact List.perm_append_comm.append_right _
  have hlen := hw.length_eq
  rw [List.length_append] at hlen
  refine ⟨⟨h.pinv.perm hw, IMap.wf_erase h.fwf _, ?_, ?_, ?_, h.clob⟩, ?_, ?_⟩
  · intro kl hkl
    have hkl' : kl ∈ s.fetches := by
      clear h hf hperm hw hlen hm
      generalize s.fetches = f at hkl
      induction f with
      | nil => simp [IMap.erase] at hkl
      | cons a f ih =>
        obtain ⟨k', l⟩ := a
        by_cases hk : k' = spec
        · simp only [IMap.erase, hk, if_true] at hkl; exact List.mem_cons_of_mem _ hkl
        · simp only [IMap.erase, hk, if_false, List.mem_cons] at hkl
          rcases hkl with hkl | hkl
          · simp [hkl]
          · exact List.mem_cons_of_mem _ (ih hkl)
    exact h.fok kl hkl'
  · have hnd : (s.active ++ s.ready).Nodup := h.act.nodup_iff.mpr h.fwf
    have hna : spec ∉ s.active := fun ha => (List.nodup_append.mp hnd).2.2 spec ha spec hm rfl
    have := h.act.erase spec
    rw [List.erase_append_right _ hna] at this
    exact this.trans (keys_erase_perm h.fwf hf)
  · show s.inFlight - deps.length = (s.chan ++ inTable (s.fetches.erase spec)).length
    have := h.cnt; omega
  · have := h.cnt; omega
  · exact (h.fok _ (IMap.mem_of_get? hf)).2

theorem SInv.deliverOne {s s' : RState N P S} {spec : S} (h : SInv env s []) (hm : spec ∈ s.ready)
    (hs : deliverOne env s spec = .ok s') : SInv env s' [] := by
  unfold Oro.deliverOne at hs
  cases hfe : env.fetch spec with
  | none => simp [hfe] at hs
  | some pm =>
    obtain ⟨p, m⟩ := pm
    simp only [hfe] at hs
    cases hf : s.fetches.get? spec with
    | none =>
      simp only [hf, Except.ok.injEq] at hs
      subst hs
      refine ⟨h.pinv, h.fwf, h.fok, ?_, h.cnt, h.clob⟩
      exact absurd (h.act.mem_iff.mp (List.mem_append_right _ hm)) ((IMap.get?_eq_none_iff _ _).mp hf)
    | some deps =>
      simp only [hf] at hs
      obtain ⟨h1, h2, h3⟩ := h.take hm hf
      rw [if_pos h2] at hs
      exact (foldE_inv (I := fun s l => SInv env s l ∧ ∀ d ∈ l, d.spec = spec)
        (fun s a l s' hI hst => ⟨hI.1.serveDep (by rw [hI.2 a (by simp)]; exact hfe) hst,
          fun d hd => hI.2 d (List.mem_cons_of_mem _ hd)⟩) deps _ _ ⟨h1, h3⟩ hs).1

theorem processReq_ready {s s' : RState N P S} {d : Dep N S} (hs : processReq env lock s d = .ok s') :
    s'.ready = s.ready ∧ s'.active = s.active := by
  unfold Oro.processReq at hs
  split at hs
  · cases hs; exact ⟨rfl, rfl⟩
  · dsimp only at hs
    split at hs
    · cases hs
    · split at hs
      · cases hs
      · cases hs; exact ⟨rfl, rfl⟩
    · cases hs; exact ⟨rfl, rfl⟩

theorem serveDep_ready {s s' : RState N P S} {p : P} {m : Manifest N} {d : Dep N S}
    (hs : Oro.serveDep env p m s d = .ok s') : s'.ready = s.ready ∧ s'.active = s.active ∧ s'.chan = s.chan ∧
      s'.fetches = s.fetches ∧ s'.inFlight = s.inFlight := by
  unfold Oro.serveDep at hs
  split at hs
  · cases hs; simp
  · split at hs
    · cases hs
    · cases hs; simp

theorem foldE_serve_ready {p : P} {m : Manifest N} : ∀ (l : List (Dep N S)) (s s' : RState N P S),
    foldE (Oro.serveDep env p m) s l = .ok s' → s'.ready = s.ready ∧ s'.active = s.active ∧ s'.chan = s.chan ∧
      s'.fetches = s.fetches ∧ s'.inFlight = s.inFlight := by
  intro l
  induction l with
  | nil => intro s s' h; simp only [foldE, Except.ok.injEq] at h; subst h; simp
  | cons d l ih =>
    intro s s' h
    simp only [foldE] at h
    cases hs : Oro.serveDep env p m s d with
    | error e => rw [hs] at h; cases h
    | ok s1 =>
      rw [hs] at h
      obtain ⟨a, b, c, e, f⟩ := serveDep_ready hs
      obtain ⟨a', b', c', e', f'⟩ := ih s1 s' h
      exact ⟨a'.trans a, b'.trans b, c'.trans c, e'.trans e, f'.trans f⟩

theorem deliverOne_ready {s s' : RState N P S} {spec : S} (hs : Oro.deliverOne env s spec = .ok s') :
    s'.ready = s.ready.erase spec ∧ s'.active = s.active ∧ s'.chan = s.chan := by
  unfold Oro.deliverOne at hs
  split at hs
  · cases hs
  · dsimp only at hs
    split at hs
    · cases hs; simp
    · split at hs
      · obtain ⟨a, b, c, _⟩ := foldE_serve_ready _ _ _ hs; exact ⟨a, b, c⟩
      · cases hs

theorem SInv.deliverStep {s s' : RState N P S} (h : SInv env s [])
    (hs : deliverStep env s = some (.ok s')) : SInv env s' [] := by
  unfold Oro.deliverStep at hs
  split at hs
  · cases hf : foldE (Oro.deliverOne env) s s.ready with
    | error e => simp [hf] at hs
    | ok s1 =>
      simp only [hf, Option.some.injEq, Except.ok.injEq] at hs
      subst hs
      have h1 := (foldE_inv (I := fun s l => SInv env s [] ∧ s.ready = l)
        (fun s a l s' h1 h2 => ⟨h1.1.deliverOne (by rw [h1.2]; simp) h2,
          by rw [(deliverOne_ready h2).1, h1.2]; simp⟩) _ _ _ ⟨h, rfl⟩ hf).1
      exact ⟨h1.pinv.qperm (sortBy_perm _ _).symm, h1.fwf, h1.fok, h1.act, h1.cnt, h1.clob⟩
  · cases hs

theorem SInv.completeStep {s s' : RState N P S} {spec : S} (h : SInv env s [])
    (hs : completeStep env s spec = some s') : SInv env s' [] := by
  unfold Oro.completeStep at hs
  split at hs
  · rename_i hc
    simp only [Bool.and_eq_true, decide_eq_true_eq] at hc
    cases hs
    refine ⟨h.pinv, h.fwf, h.fok, ?_, h.cnt, h.clob⟩
    refine List.Perm.trans ?_ h.act
    refine List.Perm.trans ?_ ((List.perm_cons_erase hc.2).symm.append_right _)
    simp only [List.cons_append]
    refine (List.perm_append_comm (l₁ := s.ready) (l₂ := [spec])).append_left _ |>.trans ?_
    exact List.perm_middle
  · cases hs

theorem SInv.rstep {s s' : RState N P S} {ev : REvent S} (h : SInv env s [])
    (hs : rstep env lock s ev = some (.ok s')) : SInv env s' [] := by
  cases ev with
  | pop => exact h.popStep hs
  | pull =>
    simp only [Oro.rstep, Option.map_eq_some_iff] at hs
    obtain ⟨x, h1, h2⟩ := hs
    cases h2
    exact h.pullStep h1
  | complete spec =>
    simp only [Oro.rstep, Option.map_eq_some_iff] at hs
    obtain ⟨x, h1, h2⟩ := hs
    cases h2
    exact h.completeStep h1
  | deliver => exact h.deliverStep hs

theorem SInv.init {root : Node N P S} (hr : IsRoot env root) : SInv env (rinit root) [] := by
  obtain ⟨name, pkg, m, hn⟩ := hr
  obtain ⟨_, _, hpar, hch, hdeps, hreqs⟩ := nodeNew_spec hn
  have get : ∀ {j : Nat} {nd : Node N P S}, ([root] : List (Node N P S))[j]? = some nd → j = 0 ∧ nd = root := by
    intro j nd h
    cases j with
    | zero => simp at h; exact ⟨rfl, h.symm⟩
    | succ j => simp at h
  refine ⟨⟨⟨?_, ?_, ?_, ?_, ?_, ?_, ?_, ?_, ?_, ?_⟩, ?_, ?_, ?_, ?_, ?_⟩, ?_, ?_, ?_, ?_, ?_⟩
  · exact ⟨root, rfl, hpar⟩
  · intro i nd h h0; exact absurd (get h).1 h0
  · intro p pn n c h hc; obtain ⟨_, rfl⟩ := get h; simp [hch] at hc
  · intro p pn h; obtain ⟨_, rfl⟩ := get h; rw [hch]; exact IMap.wf_nil
  · intro p pn h; obtain ⟨_, rfl⟩ := get h; exact mkReqs_wf hreqs
  · intro k e h; simp [rinit] at h
  · intro i nd n k h hk; obtain ⟨_, rfl⟩ := get h; simp [hdeps] at hk
  · intro p n y h
    cases p with
    | zero => simp [Graph.child?, rinit, hch] at h
    | succ p => simp [Graph.child?, rinit] at h
  · intro p pn n y r ty yn h hc; obtain ⟨_, rfl⟩ := get h; simp [hch] at hc
  · intro e he; simp [rinit] at he
  · intro d hd; simp [rinit, RState.waiting] at hd
  · simp [rinit, RState.waiting]
  · simp [rinit]
  · intro i hi
    simp [rinit] at hi; subst hi
    exact ⟨⟨root, rfl, hdeps⟩, by intro d hd; simp [rinit, RState.waiting] at hd⟩
  · intro i nd n v h _
    left; simp [rinit, (get h).1]
  · exact IMap.wf_nil
  · intro kl hkl; simp [rinit] at hkl
  · exact List.Perm.refl _
  · simp [rinit, RState.waiting]
  · rfl

theorem RReach.sinv {root : Node N P S} (hr : IsRoot env root) {s : RState N P S}
    (h : RReach env lock root s) : SInv env s [] := by
  induction h with
  | init => exact SInv.init hr
  | step ev _ hs ih => exact ih.rstep hs

end
end Oro
