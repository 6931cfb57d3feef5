import Verif.Spec.KdlConfig
import Mathlib.Data.List.Forall2
import Mathlib.Data.List.Induction
/- Property C64: a configuration file means what is written in it. -/
set_option linter.unusedSectionVars false
namespace Oro
namespace Config
variable {num : Int → Str}

/-! ### hash maps -/

theorem ofPairs_snoc {α : Type} (l : List (Str × α)) (p : Str × α) : ofPairs (l ++ [p]) = IMap.insert (ofPairs l) p.1 p.2 := by
  simp [ofPairs]

theorem ofPairs_wf {α : Type} (l : List (Str × α)) : IMap.WF (ofPairs l) := by
  induction l using List.reverseRecOn with
  | nil => exact IMap.wf_nil
  | append_singleton l p ih => rw [ofPairs_snoc]; exact IMap.wf_insert ih _ _

/-- the last entry for a key stays -/
theorem ofPairs_get {α : Type} (l : List (Str × α)) (k : Str) :
    (ofPairs l).get? k = (l.reverse.find? fun p => p.1 = k).map (·.2) := by
  induction l using List.reverseRecOn with
  | nil => rfl
  | append_singleton l p ih =>
    rw [ofPairs_snoc, IMap.get?_insert, ih]
    simp only [List.reverse_append, List.reverse_cons, List.reverse_nil, List.nil_append, List.singleton_append, List.find?_cons]
    by_cases h : k = p.1
    · simp [h]
    · rw [if_neg h, decide_eq_false (fun h' => h h'.symm)]

theorem ofPairs_nodup {α : Type} (l : List (Str × α)) (h : (l.map (·.1)).Nodup) : ofPairs l = l := by
  induction l using List.reverseRecOn with
  | nil => rfl
  | append_singleton l p ih =>
    rw [List.map_append, List.nodup_append] at h
    rw [ofPairs_snoc, ih h.1]
    refine IMap.insert_of_notMem _ ?_
    intro hm
    exact h.2.2 p.1 hm p.1 (by simp) rfl

theorem insert_map {α β : Type} (f : α → β) (m : IMap Str α) (k : Str) (v : α) :
    IMap.insert (m.map fun p => (p.1, f p.2)) k (f v) = (IMap.insert m k v).map fun p => (p.1, f p.2) := by
  induction m with
  | nil => rfl
  | cons q m ih =>
    obtain ⟨k', v'⟩ := q
    rw [List.map_cons, IMap.insert, IMap.insert]
    split
    · rfl
    · rw [ih]; rfl

theorem ofPairs_map {α β : Type} (f : α → β) (l : List (Str × α)) :
    ofPairs (l.map fun p => (p.1, f p.2)) = (ofPairs l).map fun p => (p.1, f p.2) := by
  induction l using List.reverseRecOn with
  | nil => rfl
  | append_singleton l p ih =>
    rw [List.map_append, List.map_singleton, ofPairs_snoc, ofPairs_snoc, ih]
    exact insert_map f (ofPairs l) p.1 p.2

theorem mem_insert_map {α : Type} {m : IMap Str α} {k : Str} {v : α} {q : Str × α} (h : q ∈ IMap.insert m k v) : q = (k, v) ∨ q ∈ m := by
  induction m with
  | nil => left; simpa [IMap.insert] using h
  | cons r m ih =>
    obtain ⟨k', v'⟩ := r
    rw [IMap.insert] at h
    split at h
    · rename_i hk
      rcases List.mem_cons.1 h with h | h
      · left; rw [h, hk]
      · exact .inr (List.mem_cons_of_mem _ h)
    · rcases List.mem_cons.1 h with h | h
      · exact .inr (h ▸ List.mem_cons_self)
      · rcases ih h with h | h
        · exact .inl h
        · exact .inr (List.mem_cons_of_mem _ h)

theorem mem_ofPairs {α : Type} {l : List (Str × α)} {q : Str × α} (h : q ∈ ofPairs l) : q ∈ l := by
  induction l using List.reverseRecOn with
  | nil => cases h
  | append_singleton l p ih =>
    rw [ofPairs_snoc] at h
    rcases mem_insert_map h with h | h
    · rw [h]; simp
    · exact List.mem_append_left _ (ih h)

/-! ### values -/

theorem valueKind_same {v : KVal} {w : CVal} (h : SameValue num v w) : valueKind num v = w := by cases h <;> rfl

theorem valueKinds_same {vs : List KVal} {ws : List CVal} (h : List.Forall₂ (SameValue num) vs ws) :
    vs.map (valueKind num) = ws := by
  induction h with
  | nil => rfl
  | cons h _ ih => rw [List.map_cons, ih, valueKind_same h]

theorem positional_args (vs : List KVal) : positional (vs.map fun v => (none, v)) = vs := by
  induction vs with
  | nil => rfl
  | cons v vs ih => simpa [positional] using ih

theorem positional_props (l : List (Str × KVal)) : positional (l.map fun p => (some p.1, p.2)) = [] := by
  induction l with
  | nil => rfl
  | cons v vs ih => simpa only [positional, List.map_cons, List.filter_cons, Option.isNone_some, Bool.false_eq_true, if_false] using ih

theorem properties_props (l : List (Str × KVal)) : properties (l.map fun p => (some p.1, p.2)) = l := by
  induction l with
  | nil => rfl
  | cons v vs ih => simp [properties]

mutual
/-- **C64**: a node's value is what the node means. -/
theorem C64_value {k : KNode} {w : CVal} (h : Means num k w) : nodeValue num k = w := by
  cases h with
  | flag => rfl
  | value h => simpa [nodeValue, positional] using valueKind_same h
  | @list n vs ws h1 h2 =>
    unfold nodeValue
    rw [positional_args]
    match vs, h1 with
    | v :: w :: vs, _ => dsimp only; rw [valueKinds_same h2]
  | @props n ks vs ws h1 h2 h3 h4 =>
    unfold nodeValue
    rw [positional_props, properties_props]
    have hne : ((ks.zip vs).map fun p => ((some p.1, p.2) : Option Str × KVal)) ≠ [] := by
      match ks, vs, h1, h3 with
      | k :: ks, v :: vs, _, _ => simp
    dsimp only
    rw [if_pos hne]
    have hz : ((ks.zip vs).map fun p => (p.1, valueKind num p.2)) = ks.zip ws := by
      rw [← valueKinds_same h4, List.zip_map_right]; rfl
    rw [hz, ofPairs_nodup]
    have hl : ws.length = ks.length := by rw [← h4.length_eq, h3]
    have : (ks.zip ws).map (·.1) = ks := List.map_fst_zip (by omega)
    rw [this]; exact h2
  | @items n l ws h1 h2 =>
    have : l.all (fun k => decide (k.name = dash)) = true := by
      rw [List.all_eq_true]; intro k hk; exact decide_eq_true (h1 k hk)
    have hv := means_values h2
    simp only [nodeValue, positional, List.filter_nil, List.map_nil, ne_eq, not_true_eq_false, if_false, blockValue]
    rw [if_pos this, hv]
  | @block n l ws h1 h2 h3 h4 =>
    have : ¬ l.all (fun k => decide (k.name = dash)) = true := by
      rw [List.all_eq_true]
      intro hall
      obtain ⟨k, hk⟩ := List.exists_mem_of_ne_nil l h1
      exact h3 k hk (of_decide_eq_true (hall k hk))
    have hv := means_pairs h4
    simp only [nodeValue, positional, List.filter_nil, List.map_nil, ne_eq, not_true_eq_false, if_false, blockValue]
    rw [if_neg this, hv.2, ofPairs_nodup]
    rw [List.map_fst_zip (by rw [List.length_map]; omega)]; exact h2
/-- node by node -/
theorem means_values {l : List KNode} {ws : List CVal} (h : MeanAll num l ws) : nodeValues num l = ws := by
  cases h with
  | nil => rfl
  | cons h1 h2 => rw [nodeValues, C64_value h1, means_values h2]
/-- with the names -/
theorem means_pairs {l : List KNode} {ws : List CVal} (h : MeanAll num l ws) :
    ws.length = l.length ∧ nodePairs num l = (l.map KNode.name).zip ws := by
  cases h with
  | nil => exact ⟨rfl, rfl⟩
  | cons h1 h2 =>
    obtain ⟨e1, e2⟩ := means_pairs h2
    refine ⟨by simp [e1], ?_⟩
    rw [nodePairs, C64_value h1, e2]; rfl
end

theorem nodePairs_map (l : List KNode) : nodePairs num l = l.map fun k => (k.name, nodeValue num k) := by
  induction l with
  | nil => rfl
  | cons k l ih => rw [nodePairs, ih]; rfl

/-- **C64**: what a configuration file sets: the options in its first `options` block, each to the value of the last node
of its name; a file without such a block sets nothing. -/
theorem C64_options (d : KDoc) (name : Str) (v : CVal) : (collect num d).get? name = some v ↔
    ∃ pre o post l a k b, d = pre ++ o :: post ∧ (∀ x ∈ pre, x.name ≠ ['o','p','t','i','o','n','s']) ∧
      o.name = ['o','p','t','i','o','n','s'] ∧ o.children = some l ∧ l = a ++ k :: b ∧ k.name = name ∧
      (∀ x ∈ b, x.name ≠ name) ∧ nodeValue num k = v := by
  have hfind : ∀ l : List KNode, (ofPairs (nodePairs num l)).get? name = some v ↔
      ∃ a k b, l = a ++ k :: b ∧ k.name = name ∧ (∀ x ∈ b, x.name ≠ name) ∧ nodeValue num k = v := by
    intro l
    rw [ofPairs_get, nodePairs_map, ← List.map_reverse, Option.map_eq_some_iff]
    constructor
    · rintro ⟨p, hp, hv⟩
      rw [List.find?_map] at hp
      obtain ⟨k, hk, rfl⟩ := Option.map_eq_some_iff.1 hp
      rw [List.find?_eq_some_iff_append] at hk
      obtain ⟨h1, a, b, h2, h3⟩ := hk
      refine ⟨b.reverse, k, a.reverse, ?_, by simpa using h1, ?_, hv⟩
      · have := congrArg List.reverse h2
        simpa using this
      · intro x hx
        simpa using h3 x (List.mem_reverse.1 hx)
    · rintro ⟨a, k, b, rfl, h1, h2, h3⟩
      refine ⟨(k.name, nodeValue num k), ?_, h3⟩
      rw [List.find?_map, Option.map_eq_some_iff]
      refine ⟨k, ?_, rfl⟩
      rw [List.find?_eq_some_iff_append]
      refine ⟨by simpa using h1, b.reverse, a.reverse, by simp, ?_⟩
      intro x hx
      simpa using h2 x (List.mem_reverse.1 hx)
  constructor
  · intro h
    unfold collect at h
    cases hg : KDoc.get d optionsWord with
    | none => rw [hg] at h; simp at h
    | some o =>
      rw [hg] at h
      dsimp only at h
      unfold KDoc.get at hg
      rw [List.find?_eq_some_iff_append] at hg
      obtain ⟨h1, pre, post, h2, h3⟩ := hg
      cases hc : o.children with
      | none => rw [hc] at h; simp at h
      | some l =>
        rw [hc] at h
        obtain ⟨a, k, b, e1, e2, e3, e4⟩ := (hfind l).1 h
        exact ⟨pre, o, post, l, a, k, b, h2, fun x hx => of_decide_eq_false (show decide (x.name = optionsWord) = false by simpa only [Bool.not_eq_true'] using h3 x hx),
          of_decide_eq_true h1, hc, e1, e2, e3, e4⟩
  · rintro ⟨pre, o, post, l, a, k, b, h1, h2, h3, h4, h5, h6, h7, h8⟩
    have hg : KDoc.get d optionsWord = some o := by
      unfold KDoc.get
      rw [List.find?_eq_some_iff_append]
      exact ⟨decide_eq_true h3, pre, post, h1, fun x hx => by rw [decide_eq_false (show ¬ x.name = optionsWord from h2 x hx)]; rfl⟩
    unfold collect
    rw [hg]
    dsimp only
    rw [h4]
    exact (hfind l).2 ⟨a, k, b, h5, h6, h7, h8⟩

/-- **C64 fails** for nodes with a value and more: properties and a block beside a value are dropped without a word. -/
theorem C64_beside_fails (n : Str) (es : List (Option Str × KVal)) (ch : Option (List KNode)) (h : ∃ e ∈ es, e.1 = none) :
    nodeValue num (.mk n es ch) = nodeValue num (.mk n (es.filter fun e => e.1 = none) none) := by
  have hp : positional (es.filter fun e => e.1 = none) = positional es := by
    unfold positional
    rw [List.filter_filter]
    congr 1
    refine List.filter_congr ?_
    intro x _
    cases x.1 <;> simp
  have hne : positional es ≠ [] := by
    obtain ⟨e, he, hn⟩ := h
    intro h0
    have : e.2 ∈ positional es := List.mem_map.2 ⟨e, List.mem_filter.2 ⟨he, by simp [hn]⟩, rfl⟩
    rw [h0] at this
    simp at this
  unfold nodeValue
  rw [hp]
  match h0 : positional es with
  | [] => exact absurd h0 hne
  | [v] => rfl
  | v :: w :: vs => rfl

/-- **C64 fails** for nodes with properties and a block: the block is dropped. -/
theorem C64_block_fails (n : Str) (es : List (Option Str × KVal)) (ch : Option (List KNode)) (h : es ≠ []) :
    nodeValue num (.mk n es ch) = nodeValue num (.mk n es none) := by
  unfold nodeValue
  match positional es with
  | [] => dsimp only; rw [if_pos h, if_pos h]
  | [v] => rfl
  | v :: w :: vs => rfl

/-- **C64 fails** for a second `options` block: it is dropped. -/
theorem C64_second_fails (pre post : KDoc) (o : KNode) (ho : o.name = ['o','p','t','i','o','n','s']) :
    collect num (pre ++ o :: post) = collect num (pre ++ [o]) := by
  unfold collect
  have : KDoc.get (pre ++ o :: post) optionsWord = KDoc.get (pre ++ [o]) optionsWord := by
    unfold KDoc.get
    have hd : decide (o.name = optionsWord) = true := decide_eq_true ho
    rw [List.find?_append, List.find?_append, List.find?_cons, List.find?_cons, hd]
  rw [this]

/-- cases that meet the hypotheses -/
example : Means (fun _ => ['5']) (.mk ['a'] [] (some [.mk ['b'] [(none, .int 5)] none, .mk ['c'] [(some ['x'], .bool true)] none,
    .mk ['d'] [] (some [.mk ['-'] [] none])]))
    (.table [(['b'], .int 5 ['5']), (['c'], .table [(['x'], .bool true)]), (['d'], .array [.bool true])]) :=
  .block (ws := [.int 5 ['5'], .table [(['x'], .bool true)], .array [.bool true]]) (by simp) (by decide) (by decide)
    (.cons (.value .int) (.cons (.props (ks := [['x']]) (vs := [.bool true]) (by simp) (by simp) rfl (.cons .bool .nil))
      (.cons (.items (by decide) (.cons .flag .nil)) .nil)))

example : nodeValue (fun _ => []) (.mk ['a'] [(none, .bool false), (some ['x'], .bool true)] (some [.mk ['b'] [] none])) = .bool false := rfl

end Config
end Oro
