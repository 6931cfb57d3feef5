import Verif.Spec.Config
set_option linter.unusedSectionVars false
namespace Oro
namespace Config

theorem events_append (takes : Str → Bool) (a b : List Str) (h : complete takes a = true) :
    events takes (a ++ b) = events takes a ++ events takes b := by
  fun_induction complete takes a with
  | case1 => rfl
  | case2 a l hl =>
    have ht : takes l = false := by simpa using h
    cases b with
    | nil => simp [events, hl]
    | cons c b => simp [events, hl, ht]
  | case3 a hl =>
    cases hx : longOf a with
    | none => cases b <;> simp [events, hx]
    | some p =>
      obtain ⟨l, v⟩ := p
      cases v with
      | none => exact absurd hx (hl l)
      | some v => cases b <;> simp [events, hx]
  | case4 a c rest l hl ht ih =>
    simp only [List.cons_append, events, hl, ht, if_true]
    rw [ih h]
  | case5 a c rest l hl ht ih =>
    have ht' : takes l = false := by simpa using ht
    simp only [List.cons_append, events, hl, ht', Bool.false_eq_true, if_false]
    have := ih h
    simp only [List.cons_append] at this
    rw [this]
  | case6 a c rest hl ih =>
    have := ih h
    simp only [List.cons_append] at this
    cases hx : longOf a with
    | none => simp only [List.cons_append, events, hx]; rw [this]
    | some p =>
      obtain ⟨l, v⟩ := p
      cases v with
      | none => exact absurd hx (hl l)
      | some v => simp only [List.cons_append, events, hx]; rw [this]

theorem complete_append (takes : Str → Bool) (a b : List Str) (h : complete takes a = true) (hb : complete takes b = true) :
    complete takes (a ++ b) = true := by
  fun_induction complete takes a with
  | case1 => exact hb
  | case2 a l hl =>
    have ht : takes l = false := by simpa using h
    cases b with
    | nil => simp [complete, hl, ht]
    | cons c b => simp [complete, hl, ht, hb]
  | case3 a hl =>
    cases hx : longOf a with
    | none => cases b <;> simp [complete, hx, hb]
    | some p =>
      obtain ⟨l, v⟩ := p
      cases v with
      | none => exact absurd hx (hl l)
      | some v => cases b <;> simp [complete, hx, hb]
  | case4 a c rest l hl ht ih =>
    simp only [List.cons_append, complete, hl, ht, if_true]
    exact ih h
  | case5 a c rest l hl ht ih =>
    have ht' : takes l = false := by simpa using ht
    simp only [List.cons_append, complete, hl, ht', Bool.false_eq_true, if_false]
    exact ih h
  | case6 a c rest hl ih =>
    have := ih h
    simp only [List.cons_append] at this
    cases hx : longOf a with
    | none => simp only [List.cons_append, complete, hx]; exact this
    | some p =>
      obtain ⟨l, v⟩ := p
      cases v with
      | none => exact absurd hx (hl l)
      | some v => simp only [List.cons_append, complete, hx]; exact this

theorem longOf_dashes {n : Str} (h1 : n ≠ []) (h2 : '=' ∉ n) : longOf (dashes n) = some (n, none) := by
  simp [longOf, dashes, h1, h2]

theorem neg_inj {a b : Str} (h : neg a = neg b) : a = b := by simpa [neg] using h
theorem dashes_inj {a b : Str} (h : dashes a = dashes b) : a = b := by simpa [dashes] using h

theorem neg_plain {n : Str} (h : '=' ∉ n) : neg n ≠ [] ∧ '=' ∉ neg n := by
  refine ⟨by simp [neg], ?_⟩
  simp [neg, h]

section declared
variable {opts : List Opt} (hd : Declared opts)
include hd

theorem name_inj {o o' : Opt} (h : o ∈ opts) (h' : o' ∈ opts) (he : o.name = o'.name) : o = o' :=
  List.inj_on_of_nodup_map hd.names h h' he

theorem takes_name {o : Opt} (h : o ∈ opts) : takesOf opts o.name = o.takes := by
  unfold takesOf
  cases ht : o.takes with
  | true =>
    rw [List.any_eq_true]
    exact ⟨o, h, by simp [ht]⟩
  | false =>
    rw [List.any_eq_false]
    intro o' h'
    by_cases he : o'.name = o.name
    · rw [name_inj hd h' h he]; simp [ht]
    · simp [he]

theorem takes_neg {o : Opt} (h : o ∈ opts) : takesOf opts (neg o.name) = false := by
  unfold takesOf
  rw [List.any_eq_false]
  intro o' h'
  simp [hd.noneg o' h' o h]

/-- pairs of an option and a value -/
theorem events_pairs {o : Opt} (h : o ∈ opts) (ht : o.takes = true) (vs : List Str) :
    events (takesOf opts) (vs.flatMap fun v => [dashes o.name, v]) = vs.map (fun v => (o.name, some v)) ∧
    complete (takesOf opts) (vs.flatMap fun v => [dashes o.name, v]) = true := by
  have hp := hd.plain o h
  induction vs with
  | nil => exact ⟨rfl, rfl⟩
  | cons v vs ih =>
    have hl := longOf_dashes hp.1 hp.2
    have htk := takes_name hd h
    rw [ht] at htk
    constructor
    · simp only [List.flatMap_cons, List.cons_append, List.nil_append, events, hl, htk, if_true, List.map_cons]
      rw [ih.1]
    · simp only [List.flatMap_cons, List.cons_append, List.nil_append, complete, hl, htk, if_true]
      exact ih.2

/-- what a configured value becomes, for an option with values -/
theorem pushes_value {o : Opt} {v : CVal} (hb : asBool v = none) :
    pushes o.name v = (valueArgs v).flatMap fun x => [dashes o.name, x] := by
  unfold pushes
  rw [hb]
  cases v with
  | nil => rfl
  | bool b => simp [asBool] at hb
  | int i t => simp [asBool] at hb
  | float z t => simp [asBool] at hb
  | str s => simp [asString, valueArgs]
  | array l =>
    simp only [asString, valueArgs]
    induction l with
    | nil => rfl
    | cons x l ih =>
      rw [List.flatMap_cons, ih (by rfl), arrayArgs, List.filterMap_cons]
      cases asString x with
      | none => rfl
      | some s => rfl
  | table l =>
    simp only [asString, valueArgs]
    induction l with
    | nil => rfl
    | cons p l ih =>
      rw [List.flatMap_cons, ih (by rfl), List.flatMap_cons, List.flatMap_append]
      congr 1
      obtain ⟨key, v⟩ := p
      cases v with
      | table m =>
        simp only [tableArgs]
        induction m with
        | nil => rfl
        | cons e m ih2 => rw [List.flatMap_cons, ih2 (by rfl), List.map_cons, List.flatMap_cons]
      | _ => rfl

/-- what a configured value becomes, for a switch -/
theorem events_switch {o : Opt} (h : o ∈ opts) (ht : o.takes = false) {v : CVal} {b : Bool} (hb : asBool v = some b) :
    events (takesOf opts) (pushes o.name v) = [(if b then o.name else neg o.name, none)] ∧
    complete (takesOf opts) (pushes o.name v) = true := by
  have hp := hd.plain o h
  have hn := neg_plain hp.2
  have htk := takes_name hd h
  rw [ht] at htk
  unfold pushes
  rw [hb]
  cases b with
  | true =>
    simp only [events, complete, longOf_dashes hp.1 hp.2, htk]
    exact ⟨rfl, rfl⟩
  | false =>
    simp only [events, complete, longOf_dashes hn.1 hn.2, takes_neg hd h]
    exact ⟨rfl, rfl⟩

variable {cfg : IMap Str CVal} (hc : Typed opts cfg)
include hc

/-- what configuration adds for an option -/
theorem chunk {o : Opt} (h : o ∈ opts) {v : CVal} (hv : cfg.get? o.name = some v) :
    complete (takesOf opts) (pushes o.name v) = true ∧
    (∀ e ∈ events (takesOf opts) (pushes o.name v), e.1 = o.name ∨ e.1 = neg o.name) ∧
    ∀ o' ∈ opts, o' ≠ o → dashes (neg o'.name) ∉ pushes o.name v := by
  cases ht : o.takes with
  | true =>
    have hb := hc.values o h ht v hv
    have := events_pairs hd h ht (valueArgs v)
    refine ⟨?_, ?_, fun o' ho' _ => hc.clean o h ht v hv o' ho'⟩
    · rw [pushes_value hd hb]
      exact this.2
    · rw [pushes_value hd hb, this.1]
      intro e he
      obtain ⟨x, _, rfl⟩ := List.mem_map.1 he
      exact .inl rfl
  | false =>
    obtain ⟨b, hb⟩ := hc.switches o h ht v hv
    have := events_switch hd h ht hb
    refine ⟨this.2, ?_, ?_⟩
    · rw [this.1]
      intro e he
      rw [List.mem_singleton] at he
      subst he
      cases b
      · exact .inr rfl
      · exact .inl rfl
    · intro o' ho' hne hm
      unfold pushes at hm
      rw [hb] at hm
      cases b with
      | true =>
        simp only [List.mem_singleton] at hm
        exact hd.noneg o h o' ho' (dashes_inj hm).symm
      | false =>
        simp only [List.mem_singleton] at hm
        exact hne (name_inj hd ho' h (neg_inj (dashes_inj hm)))

/-- the mentions of an option on a command line -/
def mentions (o : Opt) (ev : List (Str × Option Str)) : List (Str × Option Str) :=
  ev.filter fun e => e.1 = o.name || e.1 = neg o.name

omit hd hc in
theorem mentions_append (o : Opt) (a b : List (Str × Option Str)) : mentions o (a ++ b) = mentions o a ++ mentions o b :=
  List.filter_append ..

theorem mentions_other {o o' : Opt} (h : o ∈ opts) (h' : o' ∈ opts) (hne : o' ≠ o) {ev : List (Str × Option Str)}
    (he : ∀ e ∈ ev, e.1 = o'.name ∨ e.1 = neg o'.name) : mentions o ev = [] := by
  unfold mentions
  rw [List.filter_eq_nil_iff]
  intro e hm
  have hx : e.1 ≠ o.name ∧ e.1 ≠ neg o.name := by
    rcases he e hm with h1 | h1
    · rw [h1]
      exact ⟨fun h2 => hne (name_inj hd h' h h2), hd.noneg o' h' o h⟩
    · rw [h1]
      exact ⟨fun h2 => hd.noneg o h o' h' h2.symm, fun h2 => hne (name_inj hd h' h (neg_inj h2))⟩
  simp [hx.1, hx.2]

/-- one step for another option -/
theorem step_other {o o' : Opt} (h : o ∈ opts) (h' : o' ∈ opts) (hne : o' ≠ o) {cli args : List Str}
    (hcm : complete (takesOf opts) args = true) :
    complete (takesOf opts) (layerOne opts cfg cli args o') = true ∧
    mentions o (events (takesOf opts) (layerOne opts cfg cli args o')) = mentions o (events (takesOf opts) args) ∧
    (dashes (neg o.name) ∈ layerOne opts cfg cli args o' ↔ dashes (neg o.name) ∈ args) := by
  unfold layerOne
  split
  · exact ⟨hcm, rfl, Iff.rfl⟩
  · split
    · exact ⟨hcm, rfl, Iff.rfl⟩
    · cases hv : cfg.get? o'.name with
      | none => exact ⟨hcm, rfl, Iff.rfl⟩
      | some v =>
        obtain ⟨h1, h2, h3⟩ := chunk hd hc h' hv
        dsimp only
        refine ⟨complete_append _ _ _ hcm h1, ?_, ?_⟩
        · rw [events_append _ _ _ hcm, mentions_append, mentions_other hd hc h h' hne h2, List.append_nil]
        · rw [List.mem_append]
          exact ⟨fun hm => hm.resolve_right (h3 o h (Ne.symm hne)), .inl⟩

/-- what configuration adds for an option that is not mentioned -/
def added (o : Opt) : List (Str × Option Str) :=
  match IMap.get? cfg o.name with
  | none => []
  | some v => events (takesOf opts) (pushes o.name v)

theorem fold_other {o : Opt} (h : o ∈ opts) {cli : List Str} : ∀ (l : List Opt), (∀ x ∈ l, x ∈ opts) → o ∉ l → ∀ args,
    complete (takesOf opts) args = true →
    complete (takesOf opts) (l.foldl (layerOne opts cfg cli) args) = true ∧
    mentions o (events (takesOf opts) (l.foldl (layerOne opts cfg cli) args)) = mentions o (events (takesOf opts) args) ∧
    (dashes (neg o.name) ∈ l.foldl (layerOne opts cfg cli) args ↔ dashes (neg o.name) ∈ args)
  | [], _, _, _, hcm => ⟨hcm, rfl, Iff.rfl⟩
  | x :: l, hl, ho, args, hcm => by
    obtain ⟨h1, h2, h3⟩ := step_other hd hc h (hl x List.mem_cons_self) (fun he => ho (he ▸ List.mem_cons_self)) (cli := cli) hcm
    obtain ⟨g1, g2, g3⟩ := fold_other h l (fun x hx => hl x (List.mem_cons_of_mem _ hx)) (fun hx => ho (List.mem_cons_of_mem _ hx)) _ h1
    exact ⟨g1, g2.trans h2, g3.trans h3⟩

/-- all mentions of an option on the final command line -/
theorem layered_mentions {o : Opt} (h : o ∈ opts) {cli : List Str} (hcm : complete (takesOf opts) cli = true)
    {order : List Opt} (hp : order.Perm opts) :
    mentions o (events (takesOf opts) (layered opts cfg order cli)) = mentions o (events (takesOf opts) cli) ++
      (if given opts cli o = true ∨ dashes (neg o.name) ∈ cli then [] else added (opts := opts) (cfg := cfg) o) := by
  have hnd : order.Nodup := hp.nodup_iff.2 (List.Nodup.of_map _ hd.names)
  obtain ⟨pre, post, rfl⟩ := List.append_of_mem (hp.mem_iff.2 h)
  have hsub : ∀ x ∈ pre ++ o :: post, x ∈ opts := fun x hx => hp.mem_iff.1 hx
  rw [List.nodup_append] at hnd
  have hpre : o ∉ pre := fun hm => hnd.2.2 o hm o List.mem_cons_self rfl
  have hpost : o ∉ post := (List.nodup_cons.1 hnd.2.1).1
  unfold layered
  rw [List.foldl_append, List.foldl_cons]
  obtain ⟨a1, a2, a3⟩ := fold_other hd hc h (cli := cli) pre (fun x hx => hsub x (List.mem_append_left _ hx)) hpre cli hcm
  generalize hA : pre.foldl (layerOne opts cfg cli) cli = A at a1 a2 a3
  have hmid : complete (takesOf opts) (layerOne opts cfg cli A o) = true ∧
      mentions o (events (takesOf opts) (layerOne opts cfg cli A o)) = mentions o (events (takesOf opts) cli) ++
      (if given opts cli o = true ∨ dashes (neg o.name) ∈ cli then [] else added (opts := opts) (cfg := cfg) o) := by
    unfold layerOne
    by_cases hg : given opts cli o = true
    · rw [if_pos hg, if_pos (.inl hg), List.append_nil]; exact ⟨a1, a2⟩
    · rw [if_neg hg]
      by_cases hr : dashes (neg o.name) ∈ cli
      · rw [if_pos (a3.2 hr), if_pos (.inr hr), List.append_nil]; exact ⟨a1, a2⟩
      · rw [if_neg (fun hm => hr (a3.1 hm)), if_neg (by simp [hg, hr])]
        unfold added
        cases hv : cfg.get? o.name with
        | none => dsimp only; rw [List.append_nil]; exact ⟨a1, a2⟩
        | some v =>
          obtain ⟨h1, h2, _⟩ := chunk hd hc h hv
          dsimp only
          refine ⟨complete_append _ _ _ a1 h1, ?_⟩
          rw [events_append _ _ _ a1, mentions_append, a2]
          congr 1
          unfold mentions
          rw [List.filter_eq_self]
          intro e he
          rcases h2 e he with h3 | h3 <;> simp [h3]
  obtain ⟨c1, c2, c3⟩ := fold_other hd hc h (cli := cli) post (fun x hx => hsub x (List.mem_append_right _ (List.mem_cons_of_mem _ hx)))
    hpost _ hmid.1
  rw [c2, hmid.2]

end declared

/-- the last mention in terms of the mentions -/
theorem lastMention_mentions (o : Opt) (ev : List (Str × Option Str)) :
    lastMention o.name ev = (mentions o ev).getLast?.map Prod.fst := by
  unfold lastMention mentions
  congr 1
  rw [← List.head?_reverse, ← List.filter_reverse, List.head?_filter]

theorem values_mentions (opts : List Opt) (args : List Str) (o : Opt) :
    values opts args o = ((((mentions o (events (takesOf opts) args)).reverse.takeWhile fun e => e.1 ≠ neg o.name).filter
      fun e => e.1 = o.name).map Prod.snd).reverse := by
  unfold values mentions
  rw [← List.filter_reverse]
  generalize (events (takesOf opts) args).reverse = ev
  congr 2
  induction ev with
  | nil => rfl
  | cons e ev ih =>
    by_cases h1 : e.1 = neg o.name
    · rw [List.takeWhile_cons, if_neg (by simp [h1]), List.filter_cons, if_pos (by simp [h1]), List.takeWhile_cons, if_neg (by simp [h1])]
    · rw [List.takeWhile_cons, if_pos (by simp [h1])]
      by_cases h2 : e.1 = o.name
      · have h3 : ¬ o.name = neg o.name := by rw [← h2]; rw [← h2] at h1; exact h1
        simp [List.takeWhile_cons, h2] at ih ⊢
        rw [if_neg h3, List.filter_cons, if_pos (by simp [h2]), ih]
      · simp [h1, h2] at ih ⊢; exact ih

/-! ### layers -/

theorem get_setKey_ne (root : IMap Str CVal) {k k2 : Str} (v : CVal) (h : k2 ≠ k) : (setKey root k v).get? k2 = root.get? k2 := by
  cases v with
  | table l =>
    cases l with
    | nil =>
      unfold setKey
      split
      · rfl
      · exact IMap.get?_insert_ne _ _ h
    | cons p l => unfold setKey; exact IMap.get?_insert_ne _ _ h
  | _ => exact IMap.get?_insert_ne _ _ h

/-- is not a table -/
def Scalar (v : CVal) : Prop := ∀ l, v ≠ .table l

theorem get_setKey_scalar (root : IMap Str CVal) (k : Str) {v : CVal} (h : Scalar v) : (setKey root k v).get? k = some v := by
  cases v with
  | table l => exact absurd rfl (h l)
  | _ => exact IMap.get?_insert_self _ _ _

theorem get_setKey_table (root : IMap Str CVal) (k : Str) {l : IMap Str CVal} (h : l ≠ []) :
    (setKey root k (.table l)).get? k = some (.table (setAll (tableOf (root.get? k)) l)) := by
  cases l with
  | nil => exact absurd rfl h
  | cons p l =>
    unfold setKey
    rw [IMap.get?_insert_self]
    rfl

/-- one source over the ones before it -/
theorem get_setAll (l : IMap Str CVal) (hw : l.WF) : ∀ (root : IMap Str CVal) (k : Str), (setAll root l).get? k =
    match l.get? k with
    | none => root.get? k
    | some v => (setKey root k v).get? k := by
  induction l with
  | nil => intro root k; rfl
  | cons p l ih =>
    intro root k
    obtain ⟨k0, v0⟩ := p
    have hw' : IMap.WF l ∧ k0 ∉ IMap.keys l := by
      unfold IMap.WF at hw
      rw [IMap.keys_cons, List.nodup_cons] at hw
      exact ⟨hw.2, hw.1⟩
    have hs : setAll root ((k0, v0) :: l) = setAll (setKey root k0 v0) l := rfl
    rw [hs, ih hw'.1]
    have hg : IMap.get? ((k0, v0) :: l) k = if k0 = k then some v0 else IMap.get? l k := rfl
    rw [hg]
    by_cases hk : k0 = k
    · subst hk
      rw [if_pos rfl, (IMap.get?_eq_none_iff l k0).2 hw'.2]
    · rw [if_neg hk]
      cases hv : IMap.get? l k with
      | none => exact get_setKey_ne root v0 (Ne.symm hk)
      | some v =>
        dsimp only
        cases v with
        | table t =>
          cases t with
          | nil =>
            unfold setKey
            rw [get_setKey_ne root v0 (Ne.symm hk)]
            by_cases hr : (root.get? k).isSome
            · rw [if_pos hr, if_pos hr, get_setKey_ne root v0 (Ne.symm hk)]
            · rw [if_neg hr, if_neg hr, IMap.get?_insert_self, IMap.get?_insert_self]
          | cons p t =>
            rw [get_setKey_table _ _ (by simp), get_setKey_table _ _ (by simp), get_setKey_ne root v0 (Ne.symm hk)]
        | _ => rw [get_setKey_scalar _ _ (by intro l h; cases h), get_setKey_scalar _ _ (by intro l h; cases h)]

end Config
end Oro
