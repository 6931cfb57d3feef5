import Verif.Proofs.Orderly

set_option linter.unusedSectionVars false

namespace Oro
variable {N P S : Type} [DecidableEq N] [DecidableEq S]
open Graph

/-! ### requirements of a manifest -/

section
variable {parse : N → Str → Option S}

def reqFold (parse : N → Str → Option S) (acc : Option (IMap N (S × DepType))) (l : List ((N × Str) × DepType)) :
    Option (IMap N (S × DepType)) :=
  l.foldl (init := acc) fun acc d =>
    match acc, parse d.1.1 d.1.2 with
    | some acc, some spec => some (acc.insert d.1.1 (spec, d.2))
    | _, _ => none

def lastFor (n : N) : List ((N × Str) × DepType) → Option (Str × DepType)
  | [] => none
  | d :: l => (lastFor n l).or (if d.1.1 = n then some (d.1.2, d.2) else none)

theorem reqFold_none (l : List ((N × Str) × DepType)) : reqFold parse none l = none := by
  induction l with
  | nil => rfl
  | cons d l ih => simp only [reqFold, List.foldl_cons]; exact ih

theorem reqFold_get (n : N) : ∀ (l : List ((N × Str) × DepType)) (acc r : IMap N (S × DepType)),
    reqFold parse (some acc) l = some r →
    (∀ raw ty, lastFor n l = some (raw, ty) → ∃ spec, parse n raw = some spec ∧ r.get? n = some (spec, ty)) ∧
    (lastFor n l = none → r.get? n = acc.get? n) := by
  intro l
  induction l with
  | nil => intro acc r h; simp [reqFold] at h; subst h; simp [lastFor]
  | cons d l ih =>
    intro acc r h
    simp only [reqFold, List.foldl_cons] at h
    cases hp : parse d.1.1 d.1.2 with
    | none => rw [hp] at h; rw [show l.foldl _ none = reqFold parse none l from rfl, reqFold_none] at h; cases h
    | some spec =>
      rw [hp] at h
      obtain ⟨h1, h2⟩ := ih _ r h
      constructor
      · intro raw ty hl
        simp only [lastFor] at hl
        cases hll : lastFor n l with
        | some x =>
          rw [hll] at hl; simp only [Option.some_or, Option.some.injEq] at hl
          subst hl
          exact h1 raw ty hll
        | none =>
          rw [hll] at hl
          simp only [Option.none_or] at hl
          split at hl
          · rename_i hd
            subst hd
            cases hl
            refine ⟨spec, hp, ?_⟩
            rw [h2 hll, IMap.get?_insert_self]
          · cases hl
      · intro hl
        simp only [lastFor] at hl
        cases hll : lastFor n l with
        | some x => rw [hll] at hl; simp at hl
        | none =>
          rw [hll] at hl
          simp only [Option.none_or] at hl
          split at hl
          · cases hl
          · rename_i hd
            rw [h2 hll, IMap.get?_insert, if_neg (fun e => hd e.symm)]

theorem lastFor_append (n : N) (l1 l2 : List ((N × Str) × DepType)) :
    lastFor n (l1 ++ l2) = (lastFor n l2).or (lastFor n l1) := by
  induction l1 with
  | nil => simp [lastFor]
  | cons d l ih => simp only [List.cons_append, lastFor, ih, Option.or_assoc]

theorem lastFor_section (n : N) (ty : DepType) (sec : List (N × Str)) (hnd : (sec.map (·.1)).Nodup) :
    (∀ x, lastFor n (sec.map fun d => (d, ty)) = some x ↔ (n, x.1) ∈ sec ∧ x.2 = ty) ∧
    (lastFor n (sec.map fun d => (d, ty)) = none ↔ n ∉ sec.map (·.1)) := by
  induction sec with
  | nil => simp [lastFor]
  | cons d l ih =>
    simp only [List.map_cons, List.nodup_cons] at hnd
    obtain ⟨i1, i2⟩ := ih hnd.2
    simp only [List.map_cons, lastFor]
    cases hl : lastFor n (l.map fun d => (d, ty)) with
    | none =>
      have hn := i2.mp hl
      simp only [Option.none_or]
      constructor
      · intro x
        obtain ⟨r, t⟩ := x
        split
        · rename_i hd
          subst hd
          constructor
          · intro h; cases h; exact ⟨by simp, rfl⟩
          · rintro ⟨h, rfl⟩
            rcases List.mem_cons.mp h with h | h
            · rw [← h]
            · exact absurd (List.mem_map.mpr ⟨_, h, rfl⟩) hn
        · rename_i hd
          constructor
          · intro h; cases h
          · rintro ⟨h, rfl⟩
            rcases List.mem_cons.mp h with h | h
            · exact absurd (by rw [← h]) hd
            · exact absurd (List.mem_map.mpr ⟨_, h, rfl⟩) hn
      · split
        · rename_i hd; subst hd; simp
        · rename_i hd
          simp only [List.mem_cons, not_or, true_iff]
          exact ⟨fun e => hd e.symm, hn⟩
    | some y =>
      simp only [Option.some_or]
      have hy := (i1 y).mp hl
      constructor
      · intro x
        rw [← hl, i1 x]
        constructor
        · rintro ⟨h, h2⟩; exact ⟨List.mem_cons_of_mem _ h, h2⟩
        · rintro ⟨h, h2⟩
          rcases List.mem_cons.mp h with h | h
          · exfalso
            apply hnd.1
            rw [← h]
            exact List.mem_map.mpr ⟨_, hy.1, rfl⟩
          · exact ⟨h, h2⟩
      · simp only [reduceCtorEq, false_iff]
        exact fun hc => hc (List.mem_cons_of_mem _ (List.mem_map.mpr ⟨_, hy.1, rfl⟩))

theorem requires_iff_last {m : Manifest N} {b : Bool} (hm : m.Proper) (n : N) (raw : Str) (ty : DepType) :
    lastFor n (m.deps.map (fun d => (d, DepType.prod)) ++ m.optDeps.map (fun d => (d, DepType.opt))
      ++ (if b then m.devDeps.map (fun d => (d, DepType.dev)) else [])) = some (raw, ty) ↔ Requires m b n raw ty := by
  obtain ⟨hp, ho, hd⟩ := hm
  obtain ⟨p1, p2⟩ := lastFor_section n .prod m.deps hp
  obtain ⟨o1, o2⟩ := lastFor_section n .opt m.optDeps ho
  obtain ⟨d1, d2⟩ := lastFor_section n .dev m.devDeps hd
  rw [lastFor_append, lastFor_append]
  have rest : ((lastFor n (m.optDeps.map fun d => (d, DepType.opt))).or
      (lastFor n (m.deps.map fun d => (d, DepType.prod))) = some (raw, ty)) ↔
      ((ty = .opt ∧ (n, raw) ∈ m.optDeps) ∨ (ty = .prod ∧ (n, raw) ∈ m.deps ∧ n ∉ m.optDeps.map (·.1))) := by
    cases hl : lastFor n (m.optDeps.map fun d => (d, DepType.opt)) with
    | some y =>
      have hy := (o1 y).mp hl
      have hin : n ∈ m.optDeps.map (·.1) := List.mem_map.mpr ⟨_, hy.1, rfl⟩
      have := o1 (raw, ty)
      rw [hl] at this
      simp only [Option.some_or]
      rw [this]
      constructor
      · rintro ⟨a, b⟩; exact Or.inl ⟨b, a⟩
      · rintro (⟨a, b⟩ | ⟨_, _, h⟩)
        · exact ⟨b, a⟩
        · exact absurd hin h
    | none =>
      have hn := o2.mp hl
      simp only [Option.none_or]
      rw [p1 (raw, ty)]
      constructor
      · rintro ⟨a, b⟩; exact Or.inr ⟨b, a, hn⟩
      · rintro (⟨a, b⟩ | ⟨a, b, _⟩)
        · exact absurd (List.mem_map.mpr ⟨_, b, rfl⟩) hn
        · exact ⟨b, a⟩
  cases b with
  | false =>
    simp only [Bool.false_eq_true, if_false, lastFor, Option.none_or]
    rw [rest]
    simp [Requires]
  | true =>
    simp only [if_true]
    cases hl : lastFor n (m.devDeps.map fun d => (d, DepType.dev)) with
    | some y =>
      have hy := (d1 y).mp hl
      have hin : n ∈ m.devDeps.map (·.1) := List.mem_map.mpr ⟨_, hy.1, rfl⟩
      have := d1 (raw, ty)
      rw [hl] at this
      simp only [Option.some_or]
      rw [this]
      constructor
      · rintro ⟨a, b⟩; exact Or.inl ⟨b, rfl, a⟩
      · rintro (⟨a, _, b⟩ | ⟨_, _, h⟩ | ⟨_, _, _, h⟩)
        · exact ⟨b, a⟩
        · exact absurd ⟨rfl, hin⟩ h
        · exact absurd ⟨rfl, hin⟩ h
    | none =>
      have hn := d2.mp hl
      simp only [Option.none_or]
      rw [rest]
      constructor
      · rintro (⟨a, b⟩ | ⟨a, b, c⟩)
        · exact Or.inr (Or.inl ⟨a, b, fun h => hn h.2⟩)
        · exact Or.inr (Or.inr ⟨a, b, c, fun h => hn h.2⟩)
      · rintro (⟨_, _, b⟩ | ⟨a, b, _⟩ | ⟨a, b, c, _⟩)
        · exact absurd (List.mem_map.mpr ⟨_, b, rfl⟩) hn
        · exact Or.inl ⟨a, b⟩
        · exact Or.inr ⟨a, b, c⟩

theorem mkReqs_spec {m : Manifest N} {b : Bool} {r : IMap N (S × DepType)} (hm : m.Proper)
    (h : mkReqs parse m b = some r) (n : N) (spec : S) (ty : DepType) :
    r.get? n = some (spec, ty) ↔ ∃ raw, Requires m b n raw ty ∧ parse n raw = some spec := by
  have hf : reqFold parse (some []) _ = some r := h
  obtain ⟨h1, h2⟩ := reqFold_get n _ _ _ hf
  constructor
  · intro hg
    cases hl : lastFor n (m.deps.map (fun d => (d, DepType.prod)) ++ m.optDeps.map (fun d => (d, DepType.opt))
      ++ (if b then m.devDeps.map (fun d => (d, DepType.dev)) else [])) with
    | none => rw [h2 hl] at hg; simp at hg
    | some x =>
      obtain ⟨raw, ty'⟩ := x
      obtain ⟨sp, hp, hr⟩ := h1 raw ty' hl
      rw [hr] at hg; cases hg
      exact ⟨raw, (requires_iff_last hm n raw ty).mp hl, hp⟩
  · rintro ⟨raw, hreq, hp⟩
    obtain ⟨sp, hp', hr⟩ := h1 raw ty ((requires_iff_last hm n raw ty).mpr hreq)
    rw [hp] at hp'; cases hp'
    exact hr
end

section
variable {env : Env N P S} {lock : Option (LockTree N P)}

/-! ### the lockfile walk -/

theorem lockWalk_iff {l : LockTree N P} {name : N} {spec : S} {p : P} {ent : LockEntry N P} (rp : List N) :
    lockWalk env l name spec rp = some (some (p, ent)) ↔
    ∃ pre suf, rp.reverse = pre ++ suf ∧ l.get? (pre ++ [name]) = some ent ∧ ent.pkg = some (some p) ∧
      env.sat p spec = true ∧
      ∀ s1, s1 ≠ [] → s1 <+: suf → ∀ e, l.get? (pre ++ s1 ++ [name]) = some e → e.pkg = some none := by
  have probe : ∀ rp : List N, lockProbe env l name spec rp = some (some (some (p, ent))) ↔
      l.get? (rp.reverse ++ [name]) = some ent ∧ ent.pkg = some (some p) ∧ env.sat p spec = true := by
    intro rp
    unfold lockProbe
    rw [show (name :: rp).reverse = rp.reverse ++ [name] by simp]
    cases hg : l.get? (rp.reverse ++ [name]) with
    | none => simp
    | some e =>
      dsimp only
      cases hp : e.pkg with
      | none => simp; rintro rfl; simp [hp]
      | some o =>
        cases o with
        | none => simp; rintro rfl; simp [hp]
        | some p' =>
          dsimp only
          by_cases hs : env.sat p' spec = true
          · simp only [hs, if_true, Option.some.injEq, Prod.mk.injEq]
            constructor
            · rintro ⟨rfl, rfl⟩; exact ⟨rfl, hp, hs⟩
            · rintro ⟨rfl, h1, _⟩; rw [hp] at h1; cases h1; exact ⟨rfl, rfl⟩
          · simp only [hs]
            constructor
            · intro h; cases h
            · rintro ⟨h0, h1, h2⟩; cases h0; rw [hp] at h1; cases h1; exact absurd h2 hs
  have probeNone : ∀ rp : List N, lockProbe env l name spec rp = none ↔
      ∀ e, l.get? (rp.reverse ++ [name]) = some e → e.pkg = some none := by
    intro rp
    unfold lockProbe
    rw [show (name :: rp).reverse = rp.reverse ++ [name] by simp]
    cases hg : l.get? (rp.reverse ++ [name]) with
    | none => simp
    | some e =>
      dsimp only
      cases hp : e.pkg with
      | none => simp [hp]
      | some o =>
        cases o with
        | none => simp [hp]
        | some p' =>
          dsimp only
          constructor
          · intro h; split at h <;> cases h
          · intro h; have := h e rfl; rw [hp] at this; cases this
  induction rp with
  | nil =>
    unfold lockWalk
    constructor
    · intro h
      cases hp : lockProbe env l name spec [] with
      | none => rw [hp] at h; simp at h
      | some r =>
        rw [hp] at h; simp only [Option.getD_some] at h; subst h
        obtain ⟨a, b, c⟩ := (probe []).mp hp
        refine ⟨[], [], rfl, a, b, c, ?_⟩
        intro s1 hne hpre
        exact absurd (List.prefix_nil.mp hpre) hne
    · rintro ⟨pre, suf, h, a, b, c, d⟩
      have : pre = [] ∧ suf = [] := by simpa using h.symm
      obtain ⟨rfl, rfl⟩ := this
      have := (probe []).mpr ⟨a, b, c⟩
      rw [this]; rfl
  | cons x r ih =>
    unfold lockWalk
    constructor
    · intro h
      cases hp : lockProbe env l name spec (x :: r) with
      | some res =>
        rw [hp] at h; dsimp only at h; subst h
        obtain ⟨a, b, c⟩ := (probe (x :: r)).mp hp
        refine ⟨(x :: r).reverse, [], by simp, a, b, c, ?_⟩
        intro s1 hne hpre
        exact absurd (List.prefix_nil.mp hpre) hne
      | none =>
        rw [hp] at h; dsimp only at h
        obtain ⟨pre, suf, h1, a, b, c, d⟩ := ih.mp h
        refine ⟨pre, suf ++ [x], by simp [h1], a, b, c, ?_⟩
        intro s1 hne hpre e he
        rcases List.prefix_concat_iff.mp hpre with h2 | h2
        · subst h2
          refine (probeNone (x :: r)).mp hp e ?_
          rw [← he]; simp [h1]
        · exact d s1 hne h2 e he
    · rintro ⟨pre, suf, h, a, b, c, d⟩
      rcases List.eq_nil_or_concat suf with hs | ⟨suf', y, hs⟩
      · subst hs
        simp only [List.append_nil] at h
        have := (probe (x :: r)).mpr ⟨by rw [h]; exact a, b, c⟩
        rw [this]
      · subst hs
        rw [List.concat_eq_append] at h d
        have h' : r.reverse ++ [x] = (pre ++ suf') ++ [y] := by simpa using h
        obtain ⟨h1, h2⟩ := List.append_inj' h' rfl
        have hn : lockProbe env l name spec (x :: r) = none := by
          rw [probeNone]
          intro e he
          refine d (suf' ++ [y]) (by simp) (List.prefix_refl _) e ?_
          rw [← he, h]
        rw [hn]
        refine ih.mpr ⟨pre, suf', h1, a, b, c, ?_⟩
        intro s1 hne hpre e he
        exact d s1 hne (hpre.trans (List.prefix_append _ _)) e he

/-! ### progress -/

theorem progress {s : RState N P S} (h : SInv env s []) (hc : 0 < env.concurrency) (hd : s.done = false) :
    ∃ (ev : REvent S) (r : _), rstep env lock s ev = some r := by
  cases hq : s.q with
  | cons i q => exact ⟨.pop, _, by simp only [rstep, popStep, hq]; rfl⟩
  | nil =>
    have hf : (s.inFlight != 0) = true := by
      unfold RState.done at hd
      rw [hq] at hd
      simp at hd
      simpa using hd
    cases hr : s.ready with
    | cons x l =>
      exact ⟨.deliver, _, by simp only [rstep, deliverStep, hq, hf, hr]; rfl⟩
    | nil =>
      cases ha : s.active with
      | cons x l =>
        exact ⟨.complete x, _, by simp only [rstep, completeStep, hq, hf, hr, ha]; simp [hc]; rfl⟩
      | nil =>
        have hk : s.fetches = [] := by
          have := h.act
          rw [ha, hr] at this
          have := this.length_eq
          simp only [List.append_nil, List.length_nil, IMap.keys, List.length_map] at this
          exact List.eq_nil_of_length_eq_zero this.symm
        have hw := h.cnt
        unfold RState.waiting at hw
        rw [hk] at hw
        simp only [List.flatMap_nil, List.append_nil] at hw
        cases hch : s.chan with
        | nil => rw [hch] at hw; simp [hw] at hf
        | cons d l =>
          refine ⟨.pull, ?_⟩
          simp only [rstep, pullStep, hq, hf, ha, hch]
          simp only [List.isEmpty_nil, List.length_nil, hc, decide_true, Bool.and_self, if_true, hk, IMap.get?_nil]
          exact ⟨_, rfl⟩

/-! ### every waiting requirement of a delivered fetch is linked -/

theorem serveDep_links {s s' : RState N P S} {p : P} {m : Manifest N} {d : Dep N S} {rest : List (Dep N S)}
    (h : SInv env s (d :: rest)) (hs : serveDep env p m s d = .ok s') :
    ∃ e, Linked s'.graph d.node d.name e ∧ e.spec = d.spec ∧ e.ty = d.ty ∧ e.src = d.node := by
  unfold Oro.serveDep at hs
  split at hs
  · rename_i hsd
    cases hs
    obtain ⟨h1, _⟩ := satisfy_some hsd
    subst h1
    exact linked_new h.pre1 linkAt_effect
  · rename_i hsd
    split at hs
    · cases hs
    · rename_i r hr
      cases hs
      obtain ⟨nd, t, hn, ht, h1, h2, _⟩ := placeChild_eq h.pinv.ginv h.pre1 hsd hr
      show ∃ e, Linked r.graph d.node d.name e ∧ _
      rw [h1]
      exact linked_new h.pre1 placeAt_effect

def IsLinked (g : Graph N P S) (d : Dep N S) : Prop :=
  ∃ e, Linked g d.node d.name e ∧ e.spec = d.spec ∧ e.ty = d.ty ∧ e.src = d.node

theorem IsLinked.kept {g g' : Graph N P S} (hk : Kept g g') {d : Dep N S} (h : IsLinked g d) : IsLinked g' d := by
  obtain ⟨e, h1, h2⟩ := h; exact ⟨e, hk.2 _ _ _ h1, h2⟩

theorem deliverOne_links {s s' : RState N P S} {spec : S} (h : SInv env s []) (hm : spec ∈ s.ready)
    (hs : deliverOne env s spec = .ok s') :
    (∀ deps, s.fetches.get? spec = some deps → ∀ d ∈ deps, IsLinked s'.graph d) ∧
    s'.fetches = s.fetches.erase spec ∧ (env.fetch spec).isSome := by
  have hk := (deliverOne_chain (lock := (none : Option (LockTree N P))) h hm hs).kept
  unfold Oro.deliverOne at hs
  split at hs
  · cases hs
  · rename_i p m hfe
    dsimp only at hs
    split at hs
    · rename_i hf
      exact absurd (h.act.mem_iff.mp (List.mem_append_right _ hm)) ((IMap.get?_eq_none_iff _ _).mp hf)
    · rename_i deps hf
      obtain ⟨h1, h2, h3⟩ := h.take hm hf
      rw [if_pos h2] at hs
      refine ⟨?_, (foldE_serve_ready _ _ _ hs).2.2.2.1, by rw [hfe]; rfl⟩
      intro deps' hdeps'
      rw [hf] at hdeps'; cases hdeps'
      have key := foldE_inv (I := fun x l => (SInv env x l ∧ ∀ d ∈ l, d.spec = spec) ∧
          ∃ dn, deps = dn ++ l ∧ ∀ d ∈ dn, IsLinked x.graph d)
        (fun s a l s' hI hst => by
          have hsp : a.spec = spec := hI.1.2 a (by simp)
          have hfa : env.fetch a.spec = some (p, m) := by rw [hsp]; exact hfe
          have hk := (serveDep_chain (lock := (none : Option (LockTree N P))) hI.1.1.pre1 hI.1.1.pinv.ginv hfa hst).kept
          obtain ⟨dn, e1, e2⟩ := hI.2
          refine ⟨⟨hI.1.1.serveDep hfa hst, fun d hd => hI.1.2 d (List.mem_cons_of_mem _ hd)⟩,
            dn ++ [a], by simp [e1], ?_⟩
          intro d hd
          rcases List.mem_append.mp hd with hd | hd
          · exact (e2 d hd).kept hk
          · simp at hd; subst hd; exact serveDep_links hI.1.1 hst) deps _ _
          ⟨⟨h1, h3⟩, [], rfl, by simp⟩ hs
      obtain ⟨_, dn, e1, e2⟩ := key
      simp only [List.append_nil] at e1
      rw [e1]; exact e2

theorem get?_erase_ne {f : IMap S (List (Dep N S))} {a b : S} (h : a ≠ b) : (f.erase a).get? b = f.get? b := by
  induction f with
  | nil => rfl
  | cons x f ih =>
    obtain ⟨k, v⟩ := x
    simp only [IMap.erase]
    split
    · rename_i hk; subst hk; simp [IMap.get?, h]
    · simp only [IMap.get?, ih]

theorem deliverStep_links {s s' : RState N P S} (h : SInv env s []) (hs : deliverStep env s = some (.ok s')) :
    (∀ spec ∈ s.ready, (env.fetch spec).isSome ∧
      ∀ deps, s.fetches.get? spec = some deps → ∀ d ∈ deps, IsLinked s'.graph d) ∧
    (∀ spec, spec ∉ s.ready → s'.fetches.get? spec = s.fetches.get? spec) ∧ s'.chan = s.chan := by
  unfold Oro.deliverStep at hs
  split at hs
  · split at hs
    · rename_i s1 hf
      cases hs
      have key := foldE_inv (I := fun (x : RState N P S) l => (SInv env x [] ∧ x.ready = l ∧ x.chan = s.chan) ∧
          ∃ dn, s.ready = dn ++ l ∧ (∀ spec ∈ dn, (env.fetch spec).isSome ∧
            ∀ deps, s.fetches.get? spec = some deps → ∀ d ∈ deps, IsLinked x.graph d) ∧
          ∀ spec, spec ∉ dn → x.fetches.get? spec = s.fetches.get? spec)
        (fun x a l x' hI hst => by
          obtain ⟨⟨i1, i2, i3⟩, dn, e1, e2, e3⟩ := hI
          have ham : a ∈ x.ready := by rw [i2]; simp
          have hk := (deliverOne_chain (lock := (none : Option (LockTree N P))) i1 ham hst).kept
          obtain ⟨l1, l2, l3⟩ := deliverOne_links i1 ham hst
          refine ⟨⟨i1.deliverOne ham hst, by rw [(deliverOne_ready hst).1, i2]; simp,
            (deliverOne_ready hst).2.2.trans i3⟩, dn ++ [a], by simp [e1], ?_, ?_⟩
          · intro spec hsp
            rcases List.mem_append.mp hsp with hsp | hsp
            · exact ⟨(e2 spec hsp).1, fun deps hd d hdd => ((e2 spec hsp).2 deps hd d hdd).kept hk⟩
            · simp at hsp; subst hsp
              refine ⟨l3, fun deps hd d hdd => l1 deps ?_ d hdd⟩
              have hnd : s.ready.Nodup := (List.nodup_append.mp (h.act.nodup_iff.mpr h.fwf)).2.1
              rw [e1] at hnd
              have : spec ∉ dn := fun hin => (List.nodup_append.mp hnd).2.2 spec hin spec (by simp) rfl
              rw [e3 spec this]; exact hd
          · intro spec hsp
            simp only [List.mem_append, List.mem_singleton, not_or] at hsp
            rw [l2, get?_erase_ne (fun e => hsp.2 e.symm)]
            exact e3 spec hsp.1) s.ready s s1 ⟨⟨h, rfl, rfl⟩, [], rfl, by simp, fun _ _ => rfl⟩ hf
      obtain ⟨⟨_, _, i3⟩, dn, e1, e2, e3⟩ := key
      simp only [List.append_nil] at e1
      rw [e1]; exact ⟨e2, e3, i3⟩
    · cases hs
  · cases hs

theorem mem_inTable {f : IMap S (List (Dep N S))} (hwf : f.WF) {d : Dep N S} :
    d ∈ inTable f ↔ ∃ k l, f.get? k = some l ∧ d ∈ l := by
  constructor
  · intro h
    obtain ⟨kl, h1, h2⟩ := List.mem_flatMap.mp h
    exact ⟨kl.1, kl.2, IMap.get?_of_mem hwf h1, h2⟩
  · rintro ⟨k, l, h1, h2⟩; exact inTable_get h1 h2

/-- a waiting requirement keeps waiting unless its fetch succeeds -/
theorem rstep_waiting {s s' : RState N P S} {ev : REvent S} (h : SInv env s [])
    (hs : rstep env lock s ev = some (.ok s')) {d : Dep N S} (hd : d ∈ s.waiting) :
    d ∈ s'.waiting ∨ ((env.fetch d.spec).isSome ∧ IsLinked s'.graph d) := by
  cases ev with
  | pop =>
    left
    simp only [rstep, popStep] at hs
    split at hs
    · cases hs
    · simp only [Option.some.injEq] at hs
      refine foldE_inv (I := fun x _ => d ∈ x.waiting) (fun x a l x' hI hst => ?_) _ _ _ hd hs
      unfold Oro.processReq at hst
      split at hst
      · cases hst; exact hI
      · dsimp only at hst
        split at hst
        · cases hst
        · split at hst
          · cases hst
          · cases hst; exact hI
        · cases hst
          simp only [RState.waiting, List.mem_append] at hI ⊢
          rcases hI with hI | hI
          · exact Or.inl (Or.inl hI)
          · exact Or.inr hI
  | pull =>
    left
    simp only [rstep, Option.map_eq_some_iff, pullStep] at hs
    obtain ⟨x, h1, h2⟩ := hs
    cases h2
    split at h1
    · split at h1
      · cases h1
      · rename_i d0 chan hch
        rw [waiting_eq, hch] at hd
        split at h1
        · rename_i l hf
          cases h1
          simp only [waiting_eq, List.cons_append, List.mem_cons, List.mem_append] at hd ⊢
          rw [(inTable_insert_some hf).mem_iff]
          rcases hd with hd | hd | hd
          · exact Or.inr (by rw [hd]; simp)
          · exact Or.inl hd
          · exact Or.inr (List.mem_cons_of_mem _ hd)
        · rename_i hf
          cases h1
          simp only [waiting_eq, List.cons_append, List.mem_cons, List.mem_append] at hd ⊢
          rw [(inTable_insert_none hf).mem_iff]
          rcases hd with hd | hd | hd
          · exact Or.inr (by rw [hd]; simp)
          · exact Or.inl hd
          · exact Or.inr (List.mem_cons_of_mem _ hd)
    · cases h1
  | complete spec =>
    left
    simp only [rstep, Option.map_eq_some_iff, completeStep] at hs
    obtain ⟨x, h1, h2⟩ := hs
    cases h2
    split at h1
    · cases h1; exact hd
    · cases h1
  | deliver =>
    obtain ⟨k1, k2, k3⟩ := deliverStep_links h hs
    have h' := h.deliverStep hs
    rw [waiting_eq] at hd
    rcases List.mem_append.mp hd with hd | hd
    · left; rw [waiting_eq, k3]; exact List.mem_append_left _ hd
    · obtain ⟨k, l, e1, e2⟩ := (mem_inTable h.fwf).mp hd
      have hsp : d.spec = k := (h.fok _ (IMap.mem_of_get? e1)).2 d e2
      by_cases hkr : k ∈ s.ready
      · right; rw [hsp]; exact ⟨(k1 k hkr).1, (k1 k hkr).2 l e1 d e2⟩
      · left; rw [waiting_eq]
        refine List.mem_append_right _ ((mem_inTable h'.fwf).mpr ⟨k, l, ?_, e2⟩)
        rw [k2 k hkr]; exact e1

/-! ### provenance -/

def Prov (env : Env N P S) (lock : Option (LockTree N P)) (g : Graph N P S) : Prop :=
  ∀ (i : Nat) (nd : Node N P S), g.nodes[i]? = some nd → i ≠ 0 →
    ∃ m, KnownPackage env lock nd.pkg m ∧ mkReqs env.parse m false = some nd.reqs

theorem satisfyFromLockfile_entry {l : LockTree N P} {g : Graph N P S} {d : Dep N S} {p : P} {ent : LockEntry N P}
    (h : satisfyFromLockfile env l g d = some (some (p, ent))) :
    ∃ π, l.get? π = some ent ∧ ent.pkg = some (some p) := by
  obtain ⟨pre, _, _, h1, h2, _⟩ := (lockWalk_iff _).mp h
  exact ⟨_, h1, h2⟩

theorem GStep.prov {g g' : Graph N P S} (h : GInv env g) (hp : Prov env lock g) (hs : GStep env lock g g') :
    Prov env lock g' := by
  cases hs with
  | link d hpre hsd =>
    obtain ⟨h1, h2, xn, h3, h4⟩ := satisfy_some hsd
    subst h1
    intro i nd hi h0
    obtain ⟨y, hy, rfl⟩ := linkAt_inv hi
    exact hp i y hy h0
  | place d hpre hsd hsrc hr =>
    obtain ⟨nd, t, hn, ht, h1, _, _⟩ := placeChild_eq h hpre hsd hr
    rw [h1]
    intro i x hi h0
    rcases placeAt_cases _ d nd t hpre.lt ht.lt hi with ⟨_, y, hy, rfl⟩ | ⟨rfl, rfl⟩
    · exact hp i y hy h0
    · obtain ⟨_, hpk, _, _, _, hreq⟩ := nodeNew_spec hn
      refine ⟨_, ?_, hreq⟩
      rw [hpk]
      rcases hsrc with ⟨hf, _⟩ | ⟨l, ent, hl, hse, hm, _⟩
      · exact Or.inl ⟨_, hf⟩
      · obtain ⟨π, e1, e2⟩ := satisfyFromLockfile_entry hse
        exact Or.inr ⟨l, π, ent, hl, e1, e2, hm.symm⟩

theorem RReach.prov {root : Node N P S} (hr : IsRoot env root) {s : RState N P S}
    (h : RReach env lock root s) : Prov env lock s.graph := by
  refine h.graph_ind hr ?_ (fun g g' hi hI hs => hs.prov hi hI)
  intro i nd hi h0
  cases i with
  | zero => exact absurd rfl h0
  | succ i => simp at hi

theorem RReach.root_reqs {root : Node N P S} (hr : IsRoot env root) {s : RState N P S}
    (h : RReach env lock root s) : ∃ nd, s.graph.nodes[0]? = some nd ∧ nd.reqs = root.reqs ∧ nd.pkg = root.pkg ∧
      nd.name = root.name := by
  obtain ⟨nd, a, b, c, d, _⟩ := (h.chain hr).kept.1 0 root rfl
  exact ⟨nd, a, d, c, b⟩

/-! ### special schedules are orderly -/

theorem rrun_reach {root : Node N P S} : ∀ (evs : List (REvent S)) {s s' : RState N P S},
    RReach env lock root s → rrun env lock s evs = some (.ok s') → RReach env lock root s' := by
  intro evs
  induction evs with
  | nil => intro s s' h hr; simp [rrun] at hr; subst hr; exact h
  | cons e evs ih =>
    intro s s' h hr
    simp only [rrun] at hr
    split at hr
    · cases hr
    · cases hr
    · rename_i s1 hs; exact ih (.step e h hs) hr

theorem OrderlyReach.toReach {root : Node N P S} {s : RState N P S} (h : OrderlyReach env lock root s) :
    RReach env lock root s := by
  induction h with
  | init => exact .init
  | step ev _ _ hs ih => exact .step ev ih hs

theorem OfflineReach.orderly {root : Node N P S} {s : RState N P S} (h : OfflineReach env lock root s) :
    OrderlyReach env lock root s ∧ s.waiting = [] := by
  induction h with
  | init => exact ⟨.init, rfl⟩
  | step _ hs hw ih =>
    refine ⟨.step .pop ih.1 ?_ hs, hw⟩
    intro i _ d hd
    rw [ih.2] at hd; simp at hd

/-- with no lockfile, handling a queued package places nothing -/
theorem processReq_nolock {s s' : RState N P S} {d : Dep N S} (hs : processReq env none s d = .ok s') :
    s'.q = s.q ∧ (∀ x ∈ s'.waiting, x ∈ s.waiting ∨ x = d) ∧
      ((∃ x, s'.graph = linkAt s.graph d x) ∨ s'.graph = s.graph) := by
  unfold Oro.processReq at hs
  split at hs
  · rename_i hsd
    cases hs
    exact ⟨rfl, fun x hx => Or.inl hx, Or.inl ⟨_, (satisfy_some hsd).1⟩⟩
  · dsimp only at hs
    cases hs
    refine ⟨rfl, ?_, Or.inr rfl⟩
    intro x hx
    simp only [RState.waiting, List.mem_append, List.mem_singleton] at hx ⊢
    rcases hx with (hx | hx) | hx
    · exact Or.inl (Or.inl hx)
    · exact Or.inr hx
    · exact Or.inl (Or.inr hx)

/-- queued packages are not inside packages with waiting requirements -/
def Clear (s : RState N P S) : Prop := ∀ i ∈ s.q, ∀ d ∈ s.waiting, Within s.graph i d.node → d.node = i

theorem pop_clear {s s' : RState N P S} (h : OInv env s []) (hc : Clear s)
    (hs : popStep env none s = some (.ok s')) : Clear s' := by
  unfold Oro.popStep at hs
  cases hq : s.q with
  | nil => simp [hq] at hs
  | cons i q =>
    simp only [hq, Option.some.injEq] at hs
    have hnd := h.sinv.pinv.qnd
    rw [hq, List.nodup_cons] at hnd
    have key := foldE_inv
      (I := fun (x : RState N P S) l => (x.q = q ∧ (∀ a b, Within x.graph a b ↔ Within s.graph a b) ∧ x.graph.Ord) ∧
        (∀ d ∈ l, d.node = i) ∧ (∀ d ∈ x.waiting, d ∈ s.waiting ∨ d.node = i))
      (f := processReq env none)
      (fun x (a : Dep N S) l x' hI hst => by
        obtain ⟨⟨i1, i2, i3⟩, i4, i5⟩ := hI
        obtain ⟨j1, j2, j3⟩ := processReq_nolock hst
        refine ⟨⟨j1.trans i1, ?_, ?_⟩, fun d hd => i4 d (List.mem_cons_of_mem _ hd), ?_⟩
        · rcases j3 with ⟨y, j3⟩ | j3
          · rw [j3]; intro a b; rw [linkAt_within_iff i3]; exact i2 a b
          · rw [j3]; exact i2
        · rcases j3 with ⟨y, j3⟩ | j3
          · rw [j3]
            intro u nd p hu hp
            obtain ⟨z, hz, rfl⟩ := linkAt_inv hu
            exact i3 u z p hz hp
          · rw [j3]; exact i3
        · intro d hd
          rcases j2 d hd with hd | hd
          · exact i5 d hd
          · right; rw [hd]; exact i4 a (by simp)) (nodeDeps s.graph i) { s with q := q } s'
      ⟨⟨rfl, fun _ _ => Iff.rfl, h.sinv.pinv.ginv.ord⟩, fun d hd => nodeDeps_node hd, fun d hd => Or.inl hd⟩ hs
    obtain ⟨⟨k1, k2, _⟩, _, k4⟩ := key
    intro j hj d hd hw
    rw [k1] at hj
    rw [k2] at hw
    have hjq : j ∈ s.q := by rw [hq]; exact List.mem_cons_of_mem _ hj
    rcases k4 d hd with hd | hd
    · exact hc j hjq d hd hw
    · rw [hd] at hw ⊢
      exact (h.leaf i (by rw [hq]; simp) j hw).symm

theorem RoundReach.orderly {root : Node N P S} (hr : IsRoot env root) {s : RState N P S}
    (h : RoundReach env root s) : OrderlyReach env none root s ∧ Clear s := by
  induction h with
  | init => exact ⟨.init, fun i _ d hd => by simp [rinit, RState.waiting] at hd⟩
  | @step s s' ev _ hdel hs ih =>
    obtain ⟨ho, hc⟩ := ih
    have hoi := ho.oinv hr
    have hin : InOrder s ev := by
      cases ev with
      | pop =>
        intro i hi d hd hw
        refine hc i ?_ d hd hw
        cases hq : s.q with
        | nil => rw [hq] at hi; simp at hi
        | cons a l => rw [hq] at hi; simp at hi; subst hi; simp
      | _ => trivial
    refine ⟨.step ev ho hin hs, ?_⟩
    cases ev with
    | pop => exact pop_clear hoi hc hs
    | pull =>
      have hq : s'.q = [] := by
        simp only [rstep, Option.map_eq_some_iff, pullStep] at hs
        obtain ⟨x, h1, h2⟩ := hs
        cases h2
        split at h1
        · rename_i hg
          have : s.q = [] := by simp at hg; exact hg.1.1
          split at h1
          · cases h1
          · split at h1 <;> cases h1 <;> exact this
        · cases h1
      intro i hi; rw [hq] at hi; simp at hi
    | complete spec =>
      have hq : s'.q = [] := by
        simp only [rstep, Option.map_eq_some_iff, completeStep] at hs
        obtain ⟨x, h1, h2⟩ := hs
        cases h2
        split at h1
        · rename_i hg
          cases h1
          simp at hg; exact hg.1.1.1
        · cases h1
      intro i hi; rw [hq] at hi; simp at hi
    | deliver =>
      obtain ⟨hch, hact⟩ := hdel rfl
      obtain ⟨_, k2, k3⟩ := deliverStep_links hoi.sinv hs
      have h' := hoi.sinv.deliverStep hs
      have hw : s'.waiting = [] := by
        rw [waiting_eq, k3, hch, List.nil_append]
        apply List.eq_nil_iff_forall_not_mem.mpr
        intro d hd
        obtain ⟨k, l, e1, e2⟩ := (mem_inTable h'.fwf).mp hd
        have hact' := hoi.sinv.act
        rw [hact, List.nil_append] at hact'
        by_cases hk : k ∈ s.ready
        · -- removed
          have hkeys : k ∈ s'.fetches.keys := IMap.mem_keys_of_mem (IMap.mem_of_get? e1)
          have hr' : s'.ready = [] ∧ s'.active = [] := by
            simp only [rstep, deliverStep] at hs
            split at hs
            · split at hs
              · rename_i s1 hf
                cases hs
                have := foldE_inv (I := fun (x : RState N P S) l => x.ready = l ∧ x.active = [])
                  (fun x a l x' hI hst => ⟨by rw [(deliverOne_ready hst).1, hI.1]; simp,
                    (deliverOne_ready hst).2.1.trans hI.2⟩) _ _ _ ⟨rfl, hact⟩ hf
                exact this
              · cases hs
            · cases hs
          have := h'.act.mem_iff.mpr hkeys
          rw [hr'.1, hr'.2] at this; simp at this
        · rw [k2 k hk] at e1
          exact hk (hact'.mem_iff.mpr (IMap.mem_keys_of_mem (IMap.mem_of_get? e1)))
      intro i _ d hd
      rw [hw] at hd; simp at hd

end
end Oro
