import Verif.Spec.Agree
import Verif.Proofs.Relocked
/- Projects without version conflicts: everything is placed at the top level. -/

set_option linter.unusedSectionVars false

namespace Oro
variable {N P S : Type} [DecidableEq N] [DecidableEq S]
open Graph

section
variable {env : Env N P S} {lock : Option (LockTree N P)} {m : Manifest N} {w : N → P × Manifest N} {g g' : Graph N P S} {d : Dep N S}

/-- every package is at the top level and the one chosen for its name -/
structure AtTop (env : Env N P S) (m : Manifest N) (w : N → P × Manifest N) (g : Graph N P S) : Prop where
  node : ∀ (i : Nat) (nd : Node N P S), i ≠ 0 → g.nodes[i]? = some nd →
    Reached m w nd.name ∧ nd.pkg = (w nd.name).1 ∧ mkReqs env.parse (w nd.name).2 false = some nd.reqs ∧ nd.parent = some 0
  root : ∀ nd, g.nodes[0]? = some nd → mkReqs env.parse m true = some nd.reqs

/-- a requirement found in the tree is one of those agreed on -/
theorem AtTop.asked (h : AtTop env m w g) (hm : m.Proper) (ha : Agreed env lock m w) {i : Nat} {nd : Node N P S} {n : N} {spec : S} {ty : DepType}
    (hn : g.nodes[i]? = some nd) (hr : nd.reqs.get? n = some (spec, ty)) :
    Reached m w n ∧ env.sat (w n).1 spec = true ∧ (LockHas lock n (w n) ∨ (LockSilent lock n ∧ env.fetch spec = some (w n))) := by
  by_cases h0 : i = 0
  · subst h0
    obtain ⟨raw, h1, h2⟩ := (mkReqs_spec hm (h.root nd hn) n spec ty).1 hr
    obtain ⟨spec', h3, h4⟩ := ha.fits n raw (.inl ⟨ty, h1⟩)
    rw [h2] at h3; cases h3
    exact ⟨.direct h1, h4⟩
  · obtain ⟨k1, _, k3, _⟩ := h.node i nd h0 hn
    obtain ⟨raw, h1, h2⟩ := (mkReqs_spec (ha.reads _ k1).1 k3 n spec ty).1 hr
    obtain ⟨spec', h3, h4⟩ := ha.fits n raw (.inr ⟨_, ty, k1, h1⟩)
    rw [h2] at h3; cases h3
    exact ⟨.dep k1 h1, h4⟩

theorem AtTop.dep (h : AtTop env m w g) (hm : m.Proper) (ha : Agreed env lock m w) (hp : DepPre g d) :
    Reached m w d.name ∧ env.sat (w d.name).1 d.spec = true ∧
      (LockHas lock d.name (w d.name) ∨ (LockSilent lock d.name ∧ env.fetch d.spec = some (w d.name))) := by
  obtain ⟨nd, h1, h2, _⟩ := hp
  exact h.asked hm ha h1 h2

theorem AtTop.link (h : AtTop env m w g) {x : Nat} : AtTop env m w (linkAt g d x) := by
  refine ⟨?_, ?_⟩
  · intro i z h0 hz
    obtain ⟨y, hy, rfl⟩ := linkAt_inv hz
    exact h.node i y h0 hy
  · intro z hz
    obtain ⟨y, hy, rfl⟩ := linkAt_inv hz
    exact h.root y hy

theorem climb_root (env : Env N P S) (g : Graph N P S) (name : N) (spec : S) (pkg : P) (locked : Option (List N))
    (hl : locked = none ∨ locked = some (g.nodePath 0)) (l1 : List Nat) :
    ∀ target, (∀ x ∈ l1 ++ [0], blocked env g name spec pkg x = false) → (∀ x ∈ l1, g.nodePath x ≠ g.nodePath 0) →
    climb env g name spec pkg locked target (l1 ++ [0]) = 0 := by
  induction l1 with
  | nil =>
    intro target hb _
    have := hb 0 (by simp)
    simp only [blocked, Bool.or_eq_false_iff] at this
    simp [climb, this.1, this.2]
  | cons a l1 ih =>
    intro target hb hne
    have := hb a (by simp)
    simp only [blocked, Bool.or_eq_false_iff] at this
    have hna : ¬ (locked = some (g.nodePath a)) := by
      rcases hl with rfl | rfl
      · simp
      · intro he; exact hne a (by simp) (Option.some.inj he).symm
    simp only [List.cons_append, climb, this.1, this.2, Bool.false_eq_true, if_false, if_neg hna]
    exact ih a (fun x hx => hb x (by simp only [List.cons_append]; exact List.mem_cons_of_mem _ hx))
      (fun x hx => hne x (List.mem_cons_of_mem _ hx))

theorem ancestors_end (hg : GInv env g) {i : Nat} {nd : Node N P S} (hn : g.nodes[i]? = some nd) :
    ∃ l1, g.ancestors i = l1 ++ [0] ∧ ∀ x ∈ l1, x ≠ 0 ∧ ∃ xn, g.nodes[x]? = some xn := by
  obtain ⟨l1, l2, hs⟩ := List.append_of_mem ((mem_ancestors hg.ord _ _).2 (hg.rooted i nd hn))
  have hsort := ancestors_sorted hg.ord i
  rw [hs] at hsort
  have h2 : l2 = [] := by
    cases l2 with
    | nil => rfl
    | cons y l2 =>
      have := (List.pairwise_append.1 hsort).2.1
      have := List.rel_of_pairwise_cons this (List.mem_cons_self (a := y))
      omega
  subst h2
  refine ⟨l1, hs, fun x hx => ⟨?_, ?_⟩⟩
  · have := (List.pairwise_append.1 hsort).2.2 x hx 0 (by simp); omega
  · exact within_exists ((mem_ancestors hg.ord _ _).1 (by rw [hs]; exact List.mem_append_left _ hx))

/-- placing the chosen package: always possible, and at the top level -/
theorem AtTop.place (h : AtTop env m w g) (hm : m.Proper) (ha : Agreed env lock m w) (hg : GInv env g) (hp : DepPre g d)
    {tp : Option (List N)} (ht : tp = none ∨ tp = some [d.name]) :
    ∃ r, placeChild env g d (w d.name).1 (w d.name).2 tp = some r ∧ AtTop env m w r.graph := by
  obtain ⟨hr, hsat, _⟩ := h.dep hm ha hp
  obtain ⟨reqs, hreqs⟩ := mkReqs_isSome (ha.reads _ hr).2
  have hnew : Node.new env.parse d.name (w d.name).1 (w d.name).2 false = some { name := d.name, pkg := (w d.name).1, reqs := reqs } := by
    unfold Node.new; rw [hreqs]; rfl
  obtain ⟨r, hpl, _, hgr⟩ := placeChild_climb (tp := tp) hg hp hnew
  refine ⟨r, hpl, ?_⟩
  obtain ⟨nd, hn, _, _⟩ := id hp
  obtain ⟨l1, hl1, hne⟩ := ancestors_end hg hn
  obtain ⟨rn, hrn, _⟩ := hg.root
  have hclimb : climb env g d.name d.spec (w d.name).1 (tp.map List.dropLast) d.node (g.ancestors d.node) = 0 := by
    rw [hl1]
    refine climb_root _ _ _ _ _ _ ?_ _ _ ?_ ?_
    · rcases ht with rfl | rfl
      · exact .inl rfl
      · right; rw [nodePath_root hrn]; rfl
    · intro x hx
      rw [blocked, Bool.or_eq_false_iff]
      have hxn : ∃ xn, g.nodes[x]? = some xn := by
        rcases List.mem_append.1 hx with hx | hx
        · exact (hne x hx).2
        · rw [List.mem_singleton] at hx; subst hx; exact ⟨rn, hrn⟩
      obtain ⟨xn, hxn⟩ := hxn
      constructor
      · rw [Bool.eq_false_iff]
        intro hcb
        obtain ⟨y, yn, e, c1, c2, c3, _⟩ := (conflictBelow_iff hg x d.name d.spec).1 hcb
        obtain ⟨yn', hy', hname⟩ := hg.resolve_get c1
        rw [c2] at hy'; cases hy'
        have hy0 : y ≠ 0 := by
          rintro rfl
          obtain ⟨u, _, hc⟩ := resolveDep_holder hg.ord c1
          obtain ⟨z, z1, z2, _⟩ := hg.child_lt hc
          obtain ⟨r', hr', hrp⟩ := hg.root
          rw [z1] at hr'; cases hr'; rw [z2] at hrp; cases hrp
        rw [(h.node y yn hy0 c2).2.1, hname, hsat] at c3
        cases c3
      · unfold conflictOwn
        rw [hxn, Option.bind_some]
        cases hq : xn.reqs.get? d.name with
        | none => rfl
        | some v =>
          obtain ⟨req, ty⟩ := v
          simp [(h.asked hm ha hxn hq).2.1]
    · intro x hx he
      obtain ⟨h0, hxn⟩ := hne x hx
      exact h0 (locatedAt_inj hg.folderTree ((locatedAt_iff hg.folderTree hg.ord).2 ⟨hxn, he⟩)
        ((locatedAt_iff hg.folderTree hg.ord).2 ⟨⟨rn, hrn⟩, rfl⟩))
  rw [hclimb] at hgr
  rw [hgr]
  have h0l : 0 < g.nodes.length := lt_of_get hrn
  refine ⟨?_, ?_⟩
  · intro i z h0 hz
    rcases placeAt_cases _ d _ 0 hp.lt h0l hz with ⟨_, y, hy, rfl⟩ | ⟨rfl, rfl⟩
    · exact h.node i y h0 hy
    · exact ⟨hr, rfl, hreqs, rfl⟩
  · intro z hz
    rcases placeAt_cases _ d _ 0 hp.lt h0l hz with ⟨_, y, hy, rfl⟩ | ⟨h0, rfl⟩
    · exact h.root y hy
    · omega

/-- what the lockfile says about a requirement -/
theorem AtTop.fromLock (h : AtTop env m w g) (hm : m.Proper) (ha : Agreed env lock m w) (hp : DepPre g d)
    {l : LockTree N P} (hl : lock = some l) :
    (∃ ent, satisfyFromLockfile env l g d = some (some ((w d.name).1, ent)) ∧ ent.manifest = (w d.name).2 ∧ ent.path = [d.name]) ∨
    (satisfyFromLockfile env l g d = some none ∧ LockSilent lock d.name ∧ env.fetch d.spec = some (w d.name)) := by
  obtain ⟨_, hsat, hor⟩ := h.dep hm ha hp
  -- entries that are not at the top level describe no package
  have hdeep : ∀ x r, lockProbe env l d.name d.spec (x :: r) = none := by
    intro x r
    unfold lockProbe
    cases hget : l.get? ((d.name :: x :: r).reverse) with
    | none => rfl
    | some ent =>
      rcases ha.flat l _ ent hl hget with h1 | ⟨n, h1, _⟩
      · simp [h1]
      · have := congrArg List.length h1
        simp at this
  have hwalk : ∀ rp, lockWalk env l d.name d.spec rp = (lockProbe env l d.name d.spec []).getD (some none) := by
    intro rp
    induction rp with
    | nil => rfl
    | cons x r ih => rw [lockWalk, hdeep]; exact ih
  unfold satisfyFromLockfile
  rw [hwalk]
  rcases hor with ⟨l', e1, ent, e2, e3, e4⟩ | ⟨hsil, hf⟩
  · rw [hl] at e1; cases e1
    left
    refine ⟨ent, ?_, e4, ?_⟩
    · unfold lockProbe
      simp [e2, e3, hsat]
    · rcases ha.flat l _ ent hl e2 with h1 | ⟨n, h1, h2⟩
      · rw [e3] at h1; cases h1
      · cases h1; exact h2
  · right
    refine ⟨?_, hsil, hf⟩
    unfold lockProbe
    cases hget : l.get? ([d.name].reverse) with
    | none => rfl
    | some ent =>
      have := hsil l ent hl (by simpa using hget)
      simp [this]

/-! ### states -/

/-- everything asked of the registry is something it answers with the chosen package, and the lockfile does not have -/
def Asking (env : Env N P S) (lock : Option (LockTree N P)) (w : N → P × Manifest N) (s : RState N P S) : Prop :=
  ∀ d ∈ s.waiting, LockSilent lock d.name ∧ env.fetch d.spec = some (w d.name)

variable {s : RState N P S} {rest : List (Dep N S)}

theorem AtTop.processReq (hm : m.Proper) (ha : Agreed env lock m w) (h : SInv env s (d :: rest)) (ht : AtTop env m w s.graph)
    (hq : Asking env lock w s) : ∃ s', processReq env lock s d = .ok s' ∧ AtTop env m w s'.graph ∧ Asking env lock w s' := by
  have hg := h.pinv.ginv
  have hp := h.pre1
  unfold Oro.processReq
  cases hsd : satisfyDependency env s.graph d with
  | some v =>
    obtain ⟨g', x⟩ := v
    refine ⟨_, rfl, ?_, hq⟩
    rw [show g' = _ from (satisfy_some hsd).1]
    exact ht.link
  | none =>
    dsimp only
    have hsend : LockSilent lock d.name ∧ env.fetch d.spec = some (w d.name) →
        Asking env lock w { s with inFlight := s.inFlight + 1, chan := s.chan ++ [d] } := by
      intro hx d' hd'
      simp only [RState.waiting, List.append_assoc, List.mem_append, List.mem_singleton] at hd'
      rcases hd' with hd' | rfl | hd'
      · exact hq d' (List.mem_append_left _ hd')
      · exact hx
      · exact hq d' (List.mem_append_right _ hd')
    cases hlk : lock with
    | none =>
      dsimp only
      refine ⟨_, rfl, ht, ?_⟩
      rw [← hlk]
      apply hsend
      rcases (ht.dep hm ha hp).2.2 with ⟨l, e, _⟩ | h1
      · rw [hlk] at e; cases e
      · exact h1
    | some l =>
      dsimp only
      rcases ht.fromLock hm ha hp hlk with ⟨ent, e1, e2, e3⟩ | ⟨e1, e2⟩
      · rw [e1]
        dsimp only
        obtain ⟨r, hr, hr2⟩ := ht.place hm ha hg hp (tp := some ent.path) (.inr (by rw [e3]))
        rw [e2, hr]
        refine ⟨_, rfl, hr2, ?_⟩
        rw [← hlk]
        exact hq
      · rw [e1]
        refine ⟨_, rfl, ht, ?_⟩
        rw [← hlk]
        exact hsend e2

theorem AtTop.serveDep (hm : m.Proper) (ha : Agreed env lock m w) (h : SInv env s (d :: rest)) (ht : AtTop env m w s.graph)
    {p : P} {mm : Manifest N} (hw : w d.name = (p, mm)) : ∃ s', serveDep env p mm s d = .ok s' ∧ AtTop env m w s'.graph := by
  have hg := h.pinv.ginv
  have hp := h.pre1
  unfold Oro.serveDep
  cases hsd : satisfyDependency env s.graph d with
  | some v =>
    obtain ⟨g', x⟩ := v
    refine ⟨_, rfl, ?_⟩
    rw [show g' = _ from (satisfy_some hsd).1]
    exact ht.link
  | none =>
    dsimp only
    obtain ⟨r, hr, hr2⟩ := ht.place hm ha hg hp (tp := none) (.inl rfl)
    rw [hw] at hr
    dsimp only at hr
    rw [hr]
    exact ⟨_, rfl, hr2⟩

/-- a loop with early exit none of whose steps fails -/
theorem foldE_ok {σ α ε : Type} {f : σ → α → Except ε σ} {I : σ → List α → Prop}
    (hstep : ∀ s a l, I s (a :: l) → ∃ s', f s a = .ok s' ∧ I s' l) : ∀ l s, I s l → ∃ s', foldE f s l = .ok s' ∧ I s' [] := by
  intro l
  induction l with
  | nil => intro s h; exact ⟨s, rfl, h⟩
  | cons a l ih =>
    intro s h
    obtain ⟨s1, h1, h2⟩ := hstep s a l h
    obtain ⟨s2, h3, h4⟩ := ih s1 h2
    exact ⟨s2, by simp only [foldE, h1]; exact h3, h4⟩

theorem AtTop.deliverOne (hm : m.Proper) (ha : Agreed env lock m w) (h : SInv env s []) (ht : AtTop env m w s.graph)
    (hq : Asking env lock w s) {spec : S} (hs : spec ∈ s.ready) :
    ∃ s', deliverOne env s spec = .ok s' ∧ AtTop env m w s'.graph ∧ Asking env lock w s' := by
  have hk : spec ∈ s.fetches.keys := h.act.mem_iff.mp (List.mem_append_right _ hs)
  obtain ⟨deps, hf⟩ : ∃ deps, s.fetches.get? spec = some deps := by
    cases hx : s.fetches.get? spec with
    | none => exact absurd hk ((IMap.get?_eq_none_iff _ _).mp hx)
    | some l => exact ⟨l, rfl⟩
  have hmem := IMap.mem_of_get? hf
  obtain ⟨hne, hspec⟩ := h.fok _ hmem
  have hin : ∀ d ∈ deps, d ∈ s.waiting := fun d hd => List.mem_append_right _ (List.mem_flatMap.2 ⟨_, hmem, hd⟩)
  obtain ⟨d0, hd0⟩ := List.exists_mem_of_ne_nil deps hne
  have hfe : env.fetch spec = some (w d0.name) := by
    rw [← show d0.spec = spec from hspec d0 hd0]; exact (hq d0 (hin d0 hd0)).2
  have hw : ∀ d ∈ deps, w d.name = w d0.name := by
    intro d hd
    have := (hq d (hin d hd)).2
    rw [show d.spec = spec from hspec d hd, hfe] at this
    exact (Option.some.inj this).symm
  obtain ⟨h1, h2, h3⟩ := h.take hs hf
  unfold Oro.deliverOne
  rw [hfe]
  dsimp only
  rw [hf]
  dsimp only
  rw [if_pos h2]
  obtain ⟨s', k1, k2, k3, _, k5⟩ := foldE_ok (f := Oro.serveDep env (w d0.name).1 (w d0.name).2)
    (I := fun x l => SInv env x l ∧ AtTop env m w x.graph ∧ (∀ d ∈ l, d.spec = spec ∧ w d.name = w d0.name) ∧
      x.chan = s.chan ∧ x.fetches = s.fetches.erase spec) (by
    rintro x a l ⟨i1, i2, i3, i4, i5⟩
    obtain ⟨a1, a2⟩ := i3 a (by simp)
    obtain ⟨x', e1, e2⟩ := i2.serveDep hm ha i1 (p := (w d0.name).1) (mm := (w d0.name).2) (by rw [a2])
    obtain ⟨_, _, f1, f2, _⟩ := serveDep_ready e1
    exact ⟨x', e1, i1.serveDep (by rw [a1]; exact hfe) e1, e2, fun d hd => i3 d (List.mem_cons_of_mem _ hd), f1.trans i4, f2.trans i5⟩)
    deps _ ⟨h1, ht, fun d hd => ⟨hspec d hd, hw d hd⟩, rfl, rfl⟩
  refine ⟨s', k1, k3, ?_⟩
  intro d hd
  apply hq
  rw [waiting_eq, k5.1, k5.2, List.mem_append] at hd
  rw [waiting_eq, List.mem_append]
  rcases hd with hd | hd
  · exact .inl hd
  · exact .inr ((inTable_erase hf).mem_iff.2 (List.mem_append_right _ hd))

/-- no event fails -/
theorem AtTop.rstep {ev : REvent S} {r : Except ResolveErr (RState N P S)} (hm : m.Proper) (ha : Agreed env lock m w) (h : SInv env s [])
    (ht : AtTop env m w s.graph) (hq : Asking env lock w s) (hr : rstep env lock s ev = some r) :
    ∃ s', r = .ok s' ∧ AtTop env m w s'.graph ∧ Asking env lock w s' := by
  cases ev with
  | pop =>
    simp only [Oro.rstep, popStep] at hr
    cases hqq : s.q with
    | nil => rw [hqq] at hr; cases hr
    | cons i q =>
      rw [hqq] at hr
      simp only [Option.some.injEq] at hr
      obtain ⟨s', h1, h2, h3, h4⟩ := foldE_ok (f := Oro.processReq env lock)
        (I := fun x l => SInv env x l ∧ AtTop env m w x.graph ∧ Asking env lock w x) (by
          rintro x a l ⟨i1, i2, i3⟩
          obtain ⟨x', e1, e2, e3⟩ := i2.processReq hm ha i1 i3
          exact ⟨x', e1, i1.processReq e1, e2, e3⟩) (nodeDeps s.graph i) { s with q := q } ⟨h.pop hqq, ht, hq⟩
      exact ⟨s', hr.symm.trans h1, h3, h4⟩
  | pull =>
    simp only [Oro.rstep, Option.map_eq_some_iff] at hr
    obtain ⟨x, h1, h2⟩ := hr
    refine ⟨x, h2.symm, ?_⟩
    have hx := h.pullStep h1
    have hgr : x.graph = s.graph ∧ ∀ d ∈ x.waiting, d ∈ s.waiting := by
      unfold pullStep at h1
      split at h1
      · cases hc : s.chan with
        | nil => simp [hc] at h1
        | cons d chan =>
          simp only [hc] at h1
          cases hf : s.fetches.get? d.spec with
          | some l =>
            simp only [hf, Option.some.injEq] at h1
            subst h1
            refine ⟨rfl, fun d' hd' => ?_⟩
            rw [waiting_eq, List.mem_append] at hd'
            rw [waiting_eq, hc, List.mem_append]
            rcases hd' with hd' | hd'
            · exact .inl (List.mem_cons_of_mem _ hd')
            · rcases List.mem_cons.1 ((inTable_insert_some hf).mem_iff.1 hd') with rfl | hd'
              · exact .inl List.mem_cons_self
              · exact .inr hd'
          | none =>
            simp only [hf, Option.some.injEq] at h1
            subst h1
            refine ⟨rfl, fun d' hd' => ?_⟩
            rw [waiting_eq, List.mem_append] at hd'
            rw [waiting_eq, hc, List.mem_append]
            rcases hd' with hd' | hd'
            · exact .inl (List.mem_cons_of_mem _ hd')
            · rcases List.mem_cons.1 ((inTable_insert_none hf).mem_iff.1 hd') with rfl | hd'
              · exact .inl List.mem_cons_self
              · exact .inr hd'
      · cases h1
    rw [hgr.1]
    exact ⟨ht, fun d hd => hq d (hgr.2 d hd)⟩
  | complete spec =>
    simp only [Oro.rstep, Option.map_eq_some_iff] at hr
    obtain ⟨x, h1, h2⟩ := hr
    refine ⟨x, h2.symm, ?_⟩
    unfold completeStep at h1
    split at h1
    · cases h1; exact ⟨ht, hq⟩
    · cases h1
  | deliver =>
    simp only [Oro.rstep, deliverStep] at hr
    split at hr
    · simp only [Option.some.injEq] at hr
      obtain ⟨s', h1, h2, h3, h4, _⟩ := foldE_ok (f := Oro.deliverOne env)
        (I := fun x l => SInv env x [] ∧ AtTop env m w x.graph ∧ Asking env lock w x ∧ x.ready = l) (by
          rintro x a l ⟨i1, i2, i3, i4⟩
          have hmem : a ∈ x.ready := by rw [i4]; simp
          obtain ⟨x', e1, e2, e3⟩ := i2.deliverOne hm ha i1 i3 hmem
          exact ⟨x', e1, i1.deliverOne hmem e1, e2, e3, by rw [(deliverOne_ready e1).1, i4]; simp⟩) s.ready s ⟨h, ht, hq, rfl⟩
      rw [h1] at hr
      exact ⟨_, hr.symm, h3, h4⟩
    · cases hr

theorem AtTop.init {nm : N} {pk : P} {root : Node N P S} (hr : Node.new env.parse nm pk m true = some root) :
    AtTop env m w (rinit root).graph ∧ Asking env lock w (rinit root) := by
  refine ⟨⟨?_, ?_⟩, ?_⟩
  · intro i nd h0 hi
    cases i with
    | zero => exact absurd rfl h0
    | succ i => simp [rinit] at hi
  · intro nd hn
    simp only [rinit, List.getElem?_cons_zero, Option.some.injEq] at hn
    subst hn
    exact (nodeNew_spec hr).2.2.2.2.2
  · intro d hd; simp [rinit, RState.waiting] at hd

theorem RReach.atTop {nm : N} {pk : P} {root : Node N P S} (hr : Node.new env.parse nm pk m true = some root) (hm : m.Proper)
    (ha : Agreed env lock m w) {s : RState N P S} (h : RReach env lock root s) : AtTop env m w s.graph ∧ Asking env lock w s := by
  induction h with
  | init => exact AtTop.init hr
  | step ev h1 h2 ih =>
    obtain ⟨s', e, a, b⟩ := ih.1.rstep hm ha (h1.sinv ⟨nm, pk, m, hr⟩) ih.2 h2
    cases e
    exact ⟨a, b⟩

end
end Oro
