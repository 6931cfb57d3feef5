import Verif.Spec.Requests
import Verif.Props.Npm
import Verif.Props.Login
/- Properties C68 and C69: private and scoped registries. -/
set_option linter.unusedSectionVars false
namespace Oro
namespace Npm
open Auth Config Startup
variable {parse : Str → Option Url} {text : Url → Str} {num : Int → Str}

/-! ### C69 -/

/-- what the options block holds after saving -/
theorem scoped_options (s : Str) (reg : Url) (d : KDoc) (h : OneScoped d) : ∃ o oc l,
    KDoc.get (setScoped text s reg d) kOptions = some o ∧ o.children = some oc ∧
    oc.filter (fun s => s.name = kScoped) =
      [.mk kScoped [] (some ((l.filter fun k => k.name ≠ s) ++ [.leaf s (text reg)]))] ∧
    (∀ k ∈ l, ∃ n v, k = .leaf n v) ∧ (∀ k ∈ l, ∃ l', sectionNodes kScoped d = some l' ∧ k ∈ l') ∧
    ∀ l', sectionNodes kScoped d = some l' → l = l' := by
  unfold setScoped inSection
  rw [get_updFirst _ _ (name_upd _), if_pos rfl, get_ensure]
  have hcase : ∃ l, (addSection kScoped (((KDoc.get d kOptions).getD (.mk kOptions [] none)).children.getD [])).filter
      (fun s => s.name = kScoped) = [.mk kScoped [] (some l)] ∧ (∀ k ∈ l, ∃ n v, k = KNode.leaf n v) ∧
      (∀ k ∈ l, ∃ l', sectionNodes kScoped d = some l' ∧ k ∈ l') ∧ ∀ l', sectionNodes kScoped d = some l' → l = l' := by
    have hadd : ∀ oc : KDoc, oc.filter (fun s => s.name = kScoped) = [] →
        (addSection kScoped oc).filter (fun s => s.name = kScoped) = [.mk kScoped [] (some [])] := by
      intro oc h0
      unfold addSection
      rw [get_none_of_filter h0, if_pos (by rfl), List.filter_append, h0]
      rfl
    cases h1 : KDoc.get d kOptions with
    | none => exact ⟨[], hadd [] rfl, by simp, by simp, by simp [sectionNodes, h1]⟩
    | some o =>
      cases h2 : o.children with
      | none =>
        simp only [Option.getD_some, h2, Option.getD_none]
        exact ⟨[], hadd [] rfl, by simp, by simp, by simp [sectionNodes, h1, h2]⟩
      | some oc =>
        simp only [Option.getD_some, h2]
        rcases h o oc h1 h2 with h3 | ⟨l, h3, h4⟩
        · exact ⟨[], hadd oc h3, by simp, by simp, by simp [sectionNodes, h1, h2, get_none_of_filter h3]⟩
        · have hsn : sectionNodes kScoped d = some l := by
            simp only [sectionNodes, h1, h2, Option.bind_some, get_some_of_filter h3]
            rfl
          refine ⟨l, ?_, h4, fun k hk => ⟨l, hsn, hk⟩, fun l' hl' => ?_⟩
          · have : addSection kScoped oc = oc := by
              unfold addSection
              rw [get_some_of_filter h3, if_neg (by simp)]
            rw [this, h3]
          · rw [hsn] at hl'; exact Option.some.inj hl'
  obtain ⟨l, h1, h2, h3, h4⟩ := hcase
  exact ⟨_, _, l, rfl, rfl, filter_updFirst (name_upd _) h1, h2, h3, h4⟩

theorem collect_section {n : Str} {d : KDoc} {o s : KNode} {oc : KDoc} (h1 : KDoc.get d kOptions = some o) (h2 : o.children = some oc)
    (h3 : oc.filter (fun s => s.name = n) = [s]) : (collect num d).get? n = some (nodeValue num s) := by
  rw [Login.collect_get, h1]
  dsimp only [Option.bind_some]
  rw [h2, Option.getD_some, ← List.head?_filter, List.filter_reverse, h3]
  rfl

theorem leaves_pairs : ∀ L : List KNode, (∀ k ∈ L, ∃ a v, k = KNode.leaf a v) → ∃ ps : List (Str × Str), L = ps.map fun p => KNode.leaf p.1 p.2
  | [], _ => ⟨[], rfl⟩
  | k :: L, h => by
    obtain ⟨ps, h1⟩ := leaves_pairs L fun k hk => h k (List.mem_cons_of_mem _ hk)
    obtain ⟨a, v, h2⟩ := h k List.mem_cons_self
    exact ⟨(a, v) :: ps, by rw [h1, h2]; rfl⟩

/-- what the configuration holds for a section of texts -/
theorem texts_table {n : Str} (ps : List (Str × Str)) (hnd : ∃ p ∈ ps, p.1 ≠ dash) (file : IMap Str CVal) (hwf : file.WF)
    (hfile : file.get? n = some (nodeValue num (.mk n [] (some (ps.map fun p => KNode.leaf p.1 p.2))))) (root : IMap Str CVal)
    (hroot : root.get? n = none) : (setAll root file).get? n = some (textTable (ofPairs ps)) := by
  have hv : nodeValue num (.mk n [] (some (ps.map fun p => KNode.leaf p.1 p.2))) = textTable (ofPairs ps) := by
    have hall : ¬ (ps.map fun p => KNode.leaf p.1 p.2).all (fun k => decide (k.name = dash)) = true := by
      rw [List.all_eq_true]
      intro hall
      obtain ⟨p, hm, hn⟩ := hnd
      exact hn (of_decide_eq_true (hall _ (List.mem_map.2 ⟨p, hm, rfl⟩)))
    simp only [nodeValue, positional, List.filter_nil, List.map_nil, ne_eq, not_true_eq_false, if_false, blockValue]
    rw [if_neg hall, nodePairs_map]
    unfold textTable
    congr 1
    rw [← ofPairs_map, List.map_map]
    rfl
  have hne : ofPairs ps ≠ [] := by
    intro h0
    obtain ⟨p0, hp0, _⟩ := hnd
    have hne : ps ≠ [] := by rintro rfl; cases hp0
    obtain ⟨l, p, hlp⟩ := List.eq_nil_or_concat ps |>.resolve_left hne
    rw [hlp, List.concat_eq_append, ofPairs_snoc] at h0
    have := IMap.get?_insert_self (ofPairs l) p.1 p.2
    rw [h0] at this
    cases this
  rw [get_setAll _ hwf root n, hfile, hv]
  dsimp only [textTable]
  rw [get_setKey_table root n (by simpa using hne), hroot]
  show some (CVal.table (setAll [] ((ofPairs ps).map fun p => (p.1, CVal.str p.2)))) = _
  rw [setAll_new [] (by rw [List.nil_append]; exact IMap.wf_map (ofPairs_wf _)), List.nil_append]
  intro p hp root' _
  obtain ⟨q, _, rfl⟩ := List.mem_map.1 hp
  exact setKey_scalar (by intro l h; cases h)

theorem mem_textArgs {Q : List (Str × Str)} {s : Str} : s ∈ valueArgs (textTable Q) ↔ ∃ q ∈ Q, s = q.1 ++ '=' :: q.2 := by
  unfold valueArgs textTable
  rw [List.mem_flatMap]
  constructor
  · rintro ⟨x, hx, hs⟩
    obtain ⟨q, hq, rfl⟩ := List.mem_map.1 hx
    simp only [List.mem_singleton] at hs
    exact ⟨q, hq, by rw [hs]; rfl⟩
  · rintro ⟨q, hq, rfl⟩
    exact ⟨_, List.mem_map.2 ⟨q, hq, rfl⟩, by simp [disp, asString]⟩

/-- the values for `scoped-registries` a later command gets -/
theorem scoped_values (s : Str) (hs : s ≠ ['-']) (reg : Url) (d : KDoc) (hd : OneScoped d)
    (r : LaterCommand kScoped (collect num (setScoped text s reg d))) : ∃ ps : List (Str × Str),
    (∀ x, x ∈ r.vals.filterMap id ↔ ∃ q ∈ ofPairs (ps ++ [(s, text reg)]), x = q.1 ++ '=' :: q.2) ∧
    (∀ q ∈ ps, Entry d q.1 q.2 ∧ q.1 ≠ s) ∧ ∀ n v, Entry d n v → n ≠ s → (n, v) ∈ ps := by
  obtain ⟨o, oc, l, h1, h2, h3, h4, h5, h6⟩ := scoped_options (text := text) s reg d hd
  obtain ⟨qs, hqs⟩ := leaves_pairs (l.filter fun k => k.name ≠ s) fun k hk => h4 k (List.mem_filter.1 hk).1
  refine ⟨qs, ?_, ?_, ?_⟩
  · intro x
    have hfile := collect_section (num := num) h1 h2 h3
    rw [hqs, show qs.map (fun p => KNode.leaf p.1 p.2) ++ [KNode.leaf s (text reg)] =
      (qs ++ [(s, text reg)]).map fun p => KNode.leaf p.1 p.2 by simp] at hfile
    rw [mem_later r (texts_table (num := num) _ ⟨(s, text reg), by simp, hs⟩ _ (collect_wf _) hfile), mem_textArgs]
  · intro q hq
    have : KNode.leaf q.1 q.2 ∈ l.filter fun k => k.name ≠ s := by rw [hqs]; exact List.mem_map.2 ⟨q, hq, rfl⟩
    rw [List.mem_filter] at this
    obtain ⟨l', hl', hk⟩ := h5 _ this.1
    exact ⟨⟨l', hl', hk⟩, of_decide_eq_true this.2⟩
  · rintro n v ⟨l', hl', hk⟩ hn
    have : KNode.leaf n v ∈ l.filter fun k => k.name ≠ s := by
      rw [h6 l' hl', List.mem_filter]
      exact ⟨hk, decide_eq_true hn⟩
    rw [hqs] at this
    obtain ⟨q, hq, he⟩ := List.mem_map.1 this
    have h1 : q.1 = n := congrArg KNode.name he
    have h2 : [(none, KVal.str q.2)] = [((none : Option Str), KVal.str v)] := congrArg KNode.entries he
    simp only [List.cons.injEq, Prod.mk.injEq, KVal.str.injEq, true_and, and_true] at h2
    rw [← h1, ← h2]
    exact hq

theorem namedFor_none {sc : Str} (ops : List RegOp) (h : ∀ s v, RegOp.forScope s v ∈ ops → ¬ (s = sc ∨ s = '@' :: sc)) :
    namedFor sc ops = none := by
  induction ops with
  | nil => rfl
  | cons op ops ih =>
    rw [namedFor.eq_def]
    dsimp only
    rw [ih fun s v hm => h s v (List.mem_cons_of_mem _ hm)]
    cases op with
    | default u => rfl
    | forScope s v =>
      have := h s v List.mem_cons_self
      simp only [if_neg this]
      rfl

/-- the registry named for a scope, if all that is named for it agrees -/
theorem namedFor_all {sc : Str} {u : Url} : ∀ ops : List RegOp, (∃ s, (s = sc ∨ s = '@' :: sc) ∧ RegOp.forScope s u ∈ ops) →
    (∀ s v, RegOp.forScope s v ∈ ops → (s = sc ∨ s = '@' :: sc) → v = u) → namedFor sc ops = some u
  | [], h, _ => by obtain ⟨s, _, h⟩ := h; cases h
  | op :: ops, h, ha => by
    rw [namedFor.eq_def]
    dsimp only
    by_cases hr : ∃ s, (s = sc ∨ s = '@' :: sc) ∧ RegOp.forScope s u ∈ ops
    · rw [namedFor_all ops hr fun s v hm => ha s v (List.mem_cons_of_mem _ hm)]
      rfl
    · have hnone : namedFor sc ops = none := by
        refine namedFor_none ops fun s v hm hsc => hr ⟨s, hsc, ?_⟩
        rw [← ha s v (List.mem_cons_of_mem _ hm) hsc]
        exact hm
      rw [hnone]
      obtain ⟨s, hsc, hm⟩ := h
      rcases List.mem_cons.1 hm with rfl | hm
      · simp only [if_pos hsc]
        rfl
      · exact absurd ⟨s, hsc, hm⟩ hr

theorem namedDefault_scopes (l : List (Str × Url)) : namedDefault (l.map fun p => RegOp.forScope p.1 p.2) = none := by
  induction l with
  | nil => rfl
  | cons p l ih => rw [List.map_cons, namedDefault, ih]; rfl

theorem mem_ops {l : List (Str × Url)} {registry u : Url} {n : Str} :
    RegOp.forScope n u ∈ RegOp.default registry :: l.map (fun p => RegOp.forScope p.1 p.2) ↔ (n, u) ∈ l := by
  rw [List.mem_cons, List.mem_map]
  constructor
  · rintro (h | ⟨p, hp, h⟩)
    · cases h
    · cases h; exact hp
  · intro h; exact .inr ⟨_, h, rfl⟩

/-- **C69**: after `oro login --scope` (or any use of `set_scoped_registry`) a later command takes packages of this scope
from the registry, those of another scope in the file from that scope's registry, and everything else from the default
registry – whatever the command's other options, and for all orders in which table entries are looked at. Stated for files
with one section of scoped registries, in which every text is an address, and where scopes are not written in two ways. -/
theorem C69_used (s : Str) (hs : s ≠ ['-'] ∧ '=' ∉ s) (reg : Url) (ht : parse (text reg) = some reg) (d : KDoc) (hd : OneScoped d)
    (hok : ∀ n v, Entry d n v → '=' ∉ n ∧ ∃ u, parse v = some u)
    (r : LaterCommand kScoped (collect num (setScoped text s reg d))) (registry : Url) :
    ∃ regs, commandRegs parse registry r.vals = .ok regs ∧ pickRegistry regs none = registry ∧
      ∀ sc, sc.head? ≠ some '@' →
        ((s = sc ∨ s = '@' :: sc) → (∀ n v, Entry d n v → n = sc ∨ n = '@' :: sc → n = s) → pickRegistry regs (some sc) = reg) ∧
        (¬ (s = sc ∨ s = '@' :: sc) →
          (∀ n v u, Entry d n v → n = sc ∨ n = '@' :: sc → parse v = some u →
            (∀ n' v', Entry d n' v' → n' = sc ∨ n' = '@' :: sc → v' = v) → pickRegistry regs (some sc) = u) ∧
          ((∀ n v, Entry d n v → ¬ (n = sc ∨ n = '@' :: sc)) → pickRegistry regs (some sc) = registry)) := by
  obtain ⟨ps, hvals, hps, hps'⟩ := scoped_values s hs.1 reg d hd r
  -- what is read
  have hread : ∀ q ∈ ofPairs (ps ++ [(s, text reg)]), ∃ u, keyValue parse (q.1 ++ '=' :: q.2) = .ok (q.1, u) ∧
      parse q.2 = some u ∧ (q = (s, text reg) ∨ (Entry d q.1 q.2 ∧ q.1 ≠ s)) := by
    intro q hq
    have hq' := mem_ofPairs hq
    rw [List.mem_append, List.mem_singleton] at hq'
    have : '=' ∉ q.1 ∧ ∃ u, parse q.2 = some u := by
      rcases hq' with h | rfl
      · exact hok _ _ (hps q h).1
      · exact ⟨hs.2, reg, ht⟩
    obtain ⟨hne, u, hu⟩ := this
    refine ⟨u, by rw [C51_pair parse q.1 q.2 hne, hu], hu, ?_⟩
    rcases hq' with h | h
    · exact .inr (hps q h)
    · exact .inl h
  obtain ⟨es, hes, hmem⟩ := readAll_ok (f := keyValue parse) (vals := r.vals.filterMap id) (by
    intro x hx
    obtain ⟨q, hq, rfl⟩ := (hvals x).1 hx
    obtain ⟨u, hu, _⟩ := hread q hq
    exact ⟨_, hu⟩)
  have hes' : ∀ n u, (n, u) ∈ es ↔ ∃ v, (n, v) ∈ ofPairs (ps ++ [(s, text reg)]) ∧ parse v = some u := by
    intro n u
    rw [hmem]
    constructor
    · rintro ⟨x, hx, hxe⟩
      obtain ⟨q, hq, rfl⟩ := (hvals x).1 hx
      obtain ⟨u', hu', hp, _⟩ := hread q hq
      rw [hu'] at hxe
      cases hxe
      exact ⟨q.2, hq, hp⟩
    · rintro ⟨v, hv, hp⟩
      obtain ⟨u', hu', hp', _⟩ := hread _ hv
      rw [show parse (n, v).2 = parse v from rfl, hp] at hp'
      cases hp'
      exact ⟨_, (hvals _).2 ⟨_, hv, rfl⟩, hu'⟩
  have hnew : (s, text reg) ∈ ofPairs (ps ++ [(s, text reg)]) := by
    rw [← IMap.get?_some_iff_mem (ofPairs_wf _), ofPairs_snoc, IMap.get?_insert_self]
  refine ⟨_, by unfold commandRegs; rw [hes], ?_, ?_⟩
  · have := (C43_registry (RegOp.default registry :: es.map fun p => .forScope p.1 p.2) [] (by simp)).2
    rw [this, namedDefault, namedDefault_scopes]
    rfl
  · intro sc hsc
    rw [(C43_registry _ sc hsc).1]
    refine ⟨?_, ?_⟩
    · intro hssc hone
      rw [namedFor_all (u := reg)]
      · rfl
      · exact ⟨s, hssc, mem_ops.2 ((hes' s reg).2 ⟨_, hnew, ht⟩)⟩
      · intro n v hm hn
        obtain ⟨w, hw, hp⟩ := (hes' n v).1 (mem_ops.1 hm)
        obtain ⟨_, _, _, hq | ⟨hq, hne⟩⟩ := hread _ hw
        · cases hq
          rw [ht] at hp
          exact (Option.some.inj hp).symm
        · exact absurd (hone n w hq hn) hne
    · intro hnot
      have hother : ∀ n v, Entry d n v → n = sc ∨ n = '@' :: sc → n ≠ s := by
        intro n v _ hn he
        rw [he] at hn
        exact hnot hn
      refine ⟨?_, ?_⟩
      · intro n v u hE hn hp hone
        have hcons : ∀ n' w u', (n', w) ∈ ofPairs (ps ++ [(s, text reg)]) → (n' = sc ∨ n' = '@' :: sc) → parse w = some u' → u' = u := by
          intro n' w u' hw hn' hp'
          obtain ⟨_, _, _, hq | ⟨hq, _⟩⟩ := hread _ hw
          · cases hq; exact absurd hn' hnot
          · rw [hone n' w hq hn', hp] at hp'
            exact (Option.some.inj hp').symm
        have hin : ∃ w, (n, w) ∈ ofPairs (ps ++ [(s, text reg)]) := by
          have hk : (ofPairs (ps ++ [(s, text reg)])).get? n ≠ none := by
            rw [ofPairs_get]
            intro hnone
            rw [Option.map_eq_none_iff, List.find?_eq_none] at hnone
            have := hnone (n, v) (by
              rw [List.mem_reverse, List.mem_append]
              exact .inl (hps' n v hE (hother n v hE hn)))
            simp at this
          obtain ⟨w, hw⟩ := Option.ne_none_iff_exists'.1 hk
          exact ⟨w, (IMap.get?_some_iff_mem (ofPairs_wf _)).1 hw⟩
        obtain ⟨w, hw⟩ := hin
        obtain ⟨u', _, hp', _⟩ := hread _ hw
        have hu' := hcons n w u' hw hn hp'
        subst hu'
        rw [namedFor_all (u := u')]
        · rfl
        · exact ⟨n, hn, mem_ops.2 ((hes' n u').2 ⟨w, hw, hp'⟩)⟩
        · intro n' v' hm hn'
          obtain ⟨w', hw', hp''⟩ := (hes' n' v').1 (mem_ops.1 hm)
          exact hcons n' w' v' hw' hn' hp''
      · intro hno
        rw [namedFor_none, Option.none_or, namedDefault, namedDefault_scopes]
        · rfl
        · intro n v hm hn
          obtain ⟨w, hw, _⟩ := (hes' n v).1 (mem_ops.1 hm)
          obtain ⟨_, _, _, hq | ⟨hq, _⟩⟩ := hread _ hw
          · cases hq; exact hnot hn
          · exact hno n w hq hn

theorem readAll_snoc {α : Type} {f : Str → Outcome α} {x : Str} {a : α} (hx : f x = .ok a) : ∀ {l : List Str} {es : List α},
    readAll f l = .ok es → readAll f (l ++ [x]) = .ok (es ++ [a])
  | [], es, h => by cases h; simp [readAll, hx]
  | y :: l, es, h => by
    rw [readAll] at h
    cases hy : f y with
    | ok b =>
      rw [hy] at h
      dsimp only at h
      cases hl : readAll f l with
      | ok es' =>
        rw [hl] at h
        cases h
        rw [List.cons_append, readAll, hy, readAll_snoc hx hl]
        rfl
      | err => rw [hl] at h; cases h
      | panic => rw [hl] at h; cases h
    | err => rw [hy] at h; cases h
    | panic => rw [hy] at h; cases h

theorem namedFor_snoc {sc n : Str} (h : n = sc ∨ n = '@' :: sc) (u : Url) (ops : List RegOp) :
    namedFor sc (ops ++ [.forScope n u]) = some u := by
  induction ops with
  | nil => rw [List.nil_append, namedFor.eq_def]; simp [namedFor, h]
  | cons op ops ih =>
    rw [List.cons_append, namedFor.eq_def]
    dsimp only
    rw [ih]
    rfl

/-- **C69 fails** where the file has the scope in its other spelling: the old entry stays, and depending on the order in
which a hash table is walked later commands take the scope's packages from the old registry. -/
theorem C69_spelling_fails (s : Str) (hs : s ≠ ['-'] ∧ '=' ∉ s ∧ s.head? ≠ some '@') (reg : Url) (ht : parse (text reg) = some reg)
    (d : KDoc) (hd : OneScoped d) (hok : ∀ n v, Entry d n v → '=' ∉ n ∧ ∃ u, parse v = some u) (v : Str) (old : Url)
    (hE : Entry d ('@' :: s) v) (hv : parse v = some old) (hone : ∀ v', Entry d ('@' :: s) v' → v' = v)
    (r : LaterCommand kScoped (collect num (setScoped text s reg d))) (registry : Url) :
    ∃ vals, vals.Perm r.vals ∧ ∃ regs, commandRegs parse registry vals = .ok regs ∧ pickRegistry regs (some s) = old := by
  obtain ⟨ps, hvals, hps, hps'⟩ := scoped_values s hs.1 reg d hd r
  have hread : ∀ q ∈ ofPairs (ps ++ [(s, text reg)]), ∃ u, keyValue parse (q.1 ++ '=' :: q.2) = .ok (q.1, u) := by
    intro q hq
    have hq' := mem_ofPairs hq
    rw [List.mem_append, List.mem_singleton] at hq'
    have : '=' ∉ q.1 ∧ ∃ u, parse q.2 = some u := by
      rcases hq' with h | rfl
      · exact hok _ _ (hps q h).1
      · exact ⟨hs.2.1, reg, ht⟩
    obtain ⟨hne, u, hu⟩ := this
    exact ⟨u, by rw [C51_pair parse q.1 q.2 hne, hu]⟩
  have hne : ('@' :: s) ≠ s := by
    intro h
    have := congrArg List.length h
    simp at this
  have hin : ('@' :: s, v) ∈ ofPairs (ps ++ [(s, text reg)]) := by
    rw [← IMap.get?_some_iff_mem (ofPairs_wf _), ofPairs_get]
    have hm : ('@' :: s, v) ∈ (ps ++ [(s, text reg)]).reverse := by
      rw [List.mem_reverse, List.mem_append]
      exact .inl (hps' _ v hE hne)
    cases hf : (ps ++ [(s, text reg)]).reverse.find? fun p => decide (p.1 = '@' :: s) with
    | none =>
      rw [List.find?_eq_none] at hf
      exact absurd (hf _ hm) (by simp)
    | some p =>
      have h1 : p.1 = '@' :: s := of_decide_eq_true (List.find?_some (p := fun p : Str × Str => decide (p.1 = '@' :: s)) hf)
      have h2 := List.mem_of_find?_eq_some hf
      rw [List.mem_reverse, List.mem_append, List.mem_singleton] at h2
      rcases h2 with h2 | rfl
      · have := (hps p h2).1
        rw [h1] at this
        rw [Option.map_some, hone _ this]
      · exact absurd h1.symm hne
  have hx := (hvals (('@' :: s) ++ '=' :: v)).2 ⟨_, hin, rfl⟩
  obtain ⟨y, hy, hyx⟩ := List.mem_filterMap.1 hx
  have hyx : y = some (('@' :: s) ++ '=' :: v) := hyx
  subst hyx
  obtain ⟨a, b, hab⟩ := List.append_of_mem hy
  have hperm : (a ++ b ++ [some (('@' :: s) ++ '=' :: v)]).Perm r.vals := by
    rw [hab, List.append_assoc]
    exact List.Perm.append_left a (List.perm_append_comm (l₁ := b) (l₂ := [_]))
  refine ⟨_, hperm, ?_⟩
  obtain ⟨es, hes, _⟩ := readAll_ok (f := keyValue parse) (vals := (a ++ b).filterMap id) (by
    intro x hx
    have : x ∈ r.vals.filterMap id := by
      rw [hab]
      rw [List.filterMap_append, List.mem_append] at hx
      rw [List.filterMap_append, List.mem_append]
      rcases hx with h | h
      · exact .inl h
      · refine .inr ?_
        rw [List.filterMap_cons]
        exact List.mem_cons_of_mem _ h
    obtain ⟨q, hq, rfl⟩ := (hvals x).1 this
    obtain ⟨u, hu⟩ := hread q hq
    exact ⟨_, hu⟩)
  have hk : keyValue parse (('@' :: s) ++ '=' :: v) = .ok ('@' :: s, old) := by
    rw [C51_pair parse ('@' :: s) v (hok _ _ hE).1, hv]
  refine ⟨registries (.default registry :: (es ++ [('@' :: s, old)]).map fun p => .forScope p.1 p.2), ?_, ?_⟩
  · unfold commandRegs
    rw [List.filterMap_append, show List.filterMap id [some (('@' :: s) ++ '=' :: v)] = [('@' :: s) ++ '=' :: v] from rfl,
      readAll_snoc hk hes]
  · rw [(C43_registry _ s hs.2.2).1, List.map_append, ← List.cons_append, List.map_singleton, namedFor_snoc (.inr rfl)]
    rfl

/-! ### C68 -/

/-- **C68**: when a package's description is asked for, the credentials of its registry go along – for registries whose
address ends with a slash. -/
theorem C68_packument (b64 : Str → Str) (creds : IMap Str Cred) (regs : IMap (Option Str) Url) (scope : Option Str) (name pre : Str)
    (hp : (pickRegistry regs scope).path = pre ++ ['/']) (c : Cred) (hc : creds.get? (nerf (pickRegistry regs scope)) = some c) :
    ∃ h, sent b64 creds (packumentRequest regs scope name) = some h ∧ Says b64 c h := by
  refine ⟨headerOf b64 c, ?_, headerOf_says b64 c⟩
  obtain ⟨h1, h2, _⟩ := C43_address (pickRegistry regs scope) name pre hp
  unfold sent packumentRequest attached
  dsimp only
  rw [if_pos, hc]
  · rfl
  · unfold inside
    rw [h1, h2]
    simp

/-- **C68**: after `oro login` at a registry, a later command that takes a package from this registry asks for its
description with the credentials that were saved. -/
theorem C68_after_login (b64 : Str → Str) (uri : Url) (ht : parse (text uri) = some uri) (hdash : parse ['-'] = none)
    (hu : Address (text uri)) (c : Stored) (d : KDoc) (hd : OneAuth d) (ha : ∀ l, sectionNodes kAuth d = some l → ∀ k ∈ l, Address k.name)
    (r : LaterCommand kAuth (collect num (setCreds parse text uri c d))) (regs : IMap (Option Str) Url) (scope : Option Str)
    (hreg : pickRegistry regs scope = uri) (pre : Str) (hp : uri.path = pre ++ ['/']) (name : Str) :
    ∃ creds, commandCreds parse r.vals = .ok (some creds) ∧
      ∃ h, sent b64 creds (packumentRequest regs scope name) = some h ∧ Says b64 (meaning c) h := by
  obtain ⟨creds, h1, h2⟩ := C65_login_then_use uri ht hdash hu c d hd ha r
  exact ⟨creds, h1, C68_packument b64 creds regs scope name pre (by rw [hreg]; exact hp) _ (by rw [hreg]; exact h2)⟩

/-- **C68 fails** for registries whose address does not end with a slash, such as those of most company servers: the
package's description is asked for without credentials. -/
theorem C68_slash_fails (b64 : Str → Str) (creds : IMap Str Cred) (regs : IMap (Option Str) Url) (scope : Option Str)
    (name pre last : Str) (hp : (pickRegistry regs scope).path = pre ++ '/' :: last) (hl : '/' ∉ last) (hn : ¬ last <+: name) :
    sent b64 creds (packumentRequest regs scope name) = none := by
  unfold sent packumentRequest attached
  dsimp only
  rw [if_neg]
  unfold inside
  rw [C43_address_fails _ name pre last hp hl, hp]
  intro h
  rw [Bool.and_eq_true, List.isPrefixOf_iff_prefix] at h
  obtain ⟨t, ht⟩ := h.2
  apply hn
  refine ⟨t, ?_⟩
  rw [List.append_assoc] at ht
  have := List.append_cancel_left ht
  simpa using this

/-- C68 for archives: they are asked for with credentials if they are at registry.npmjs.org and there are credentials for
it. -/
theorem C68_tarball (b64 : Str → Str) (creds : IMap Str Cred) (default : Option Url) (tarball : Url) (hh : tarball.host = npmjs.host)
    (rest : Str) (hp : tarball.path = '/' :: rest) (c : Cred) (hc : creds.get? (nerf npmjs) = some c) :
    ∃ h, sent b64 creds (tarballRequest true default tarball) = some h ∧ Says b64 c h := by
  refine ⟨headerOf b64 c, ?_, headerOf_says b64 c⟩
  unfold sent tarballRequest clientRegistry attached inside
  dsimp only
  rw [if_pos rfl, hh, hp, if_pos, hc]
  · rfl
  · simp [npmjs]

/-- **C68 fails** for archives: no command sends credentials for an archive that is not at registry.npmjs.org, so no package
of a registry that wants credentials for its archives can be installed. -/
theorem C68_tarball_fails (b64 : Str → Str) (creds : IMap Str Cred) (default : Option Url) (tarball : Url)
    (hh : tarball.host ≠ npmjs.host) : sent b64 creds (tarballRequest true default tarball) = none := by
  unfold sent tarballRequest clientRegistry attached inside
  dsimp only
  rw [if_pos rfl, if_neg]
  simp [Ne.symm hh]

/-- **C68 fails** for archives of scoped registries at another host than the default registry, also for users of the
library. -/
theorem C68_scoped_fails (b64 : Str → Str) (creds : IMap Str Cred) (default tarball : Url) (hh : tarball.host ≠ default.host) :
    sent b64 creds (tarballRequest false (some default) tarball) = none := by
  unfold sent tarballRequest clientRegistry attached inside
  dsimp only
  rw [if_neg (show ¬ (false = true) by decide), if_neg]
  simp [Ne.symm hh]

/-! ### cases that meet the hypotheses -/

/-- a file with registries for `@a` and `b` -/
def sampleScopes : KDoc := [.mk kOptions [] (some [.mk kScoped [] (some [.leaf ['@', 'a'] ['q'], .leaf ['b'] ['q']])])]

/-- what it becomes when the registry `r` is saved for `@a` -/
theorem sampleScopes_saved : setScoped (fun u => u.host.getD []) ['@', 'a'] ⟨[], some ['r'], none, ['/'], []⟩ sampleScopes =
    [.mk kOptions [] (some [.mk kScoped [] (some [.leaf ['b'] ['q'], .leaf ['@', 'a'] ['r']])])] := rfl

example : OneScoped sampleScopes := by
  intro o oc h1 h2
  cases h1
  cases h2
  refine .inr ⟨_, rfl, ?_⟩
  intro k hk
  simp only [List.mem_cons, List.not_mem_nil, or_false] at hk
  rcases hk with rfl | rfl
  · exact ⟨_, _, rfl⟩
  · exact ⟨_, _, rfl⟩

example : Entry sampleScopes ['b'] ['q'] := ⟨_, rfl, by simp⟩

example : commandRegs sampleParse npmjs [some ['@', 'a', '=', 'r'], some ['b', '=', 'q']] =
    .ok [(none, npmjs), (some ['a'], ⟨[], some ['r'], none, ['/'], []⟩), (some ['b'], ⟨[], some ['q'], none, ['/'], []⟩)] := by
  rfl

/-- a later command with no other options -/
def sampleScopedLater : LaterCommand kScoped (collect (fun _ => [])
    (setScoped (fun u => u.host.getD []) ['@', 'a'] ⟨[], some ['r'], none, ['/'], []⟩ sampleScopes)) where
  defaults := []
  other := []
  env := []
  cfg := [(kScoped, .table [(['b'], .str ['q']), (['@', 'a'], .str ['r'])])]
  wf := ⟨IMap.wf_nil, IMap.wf_nil, IMap.wf_nil⟩
  only := ⟨rfl, rfl, rfl⟩
  loaded := .inl rfl
  opts := [⟨kScoped, true, false⟩]
  declared := ⟨by decide, by decide, by decide⟩
  typed := by
    refine ⟨?_, ?_, ?_⟩
    · intro o ho ht
      rw [List.mem_singleton] at ho
      rw [ho] at ht
      cases ht
    · intro o ho _ v hv
      rw [List.mem_singleton] at ho
      rw [ho] at hv
      cases hv
      rfl
    · intro o ho _ v hv o' ho'
      rw [List.mem_singleton] at ho ho'
      rw [ho] at hv
      cases hv
      rw [ho, ho']
      decide
  option := ⟨kScoped, true, false⟩
  option_mem := List.mem_singleton.2 rfl
  option_name := ⟨rfl, rfl, rfl⟩
  cli := []
  cli_complete := rfl
  cli_silent := by simp [events]
  cli_raw := by simp
  order := [⟨kScoped, true, false⟩]
  order_perm := .refl _
  vals := [some ['@', 'a', '=', 'r'], some ['b', '=', 'q']]
  vals_perm := by decide

/-- a request with a token -/
example : sent id [(nerf sampleReg, .token ['t'])] (packumentRequest [(none, { sampleReg with path := ['/', 'n', 'p', 'm'] })] none ['p']) = none ∧
    sent id [(['/', '/', 'r', '/'], .token ['t'])] (packumentRequest [(none, ⟨[], some ['r'], none, ['/'], []⟩)] none ['p']) =
      some (.bearer ['t']) := by
  decide

end Npm
end Oro
