import Verif.Spec.Cli
set_option linter.unusedSectionVars false
namespace Oro

namespace IMap
variable {K V : Type} [DecidableEq K]

theorem swapRemove_perm {m : IMap K V} (wf : WF m) (k : K) : (swapRemove m k).Perm (erase m k) := by
  unfold swapRemove
  rcases List.eq_nil_or_concat m with rfl | ⟨a, l, rfl⟩
  · simp [contains, erase]
  · rw [List.concat_eq_append] at *
    have hwf : (keys a).Nodup ∧ l.1 ∉ keys a := by
      unfold WF keys at wf
      rw [List.map_append, List.nodup_append] at wf
      refine ⟨wf.1, fun h => wf.2.2 _ h l.1 (by simp) rfl⟩
    have hnot : ∀ (b : IMap K V) (k : K), k ∉ keys b → erase b k = b := by
      intro b k hb
      induction b with
      | nil => rfl
      | cons x b ih =>
        rw [keys_cons, List.mem_cons, not_or] at hb
        unfold erase
        rw [if_neg (fun h => hb.1 h.symm), ih hb.2]
    have happ : ∀ (b : IMap K V) (c : IMap K V), k ∉ keys b → erase (b ++ c) k = b ++ erase c k := by
      intro b c hb
      induction b with
      | nil => rfl
      | cons x b ih =>
        rw [keys_cons, List.mem_cons, not_or] at hb
        have hx : erase ((x :: b) ++ c) k = if x.1 = k then b ++ c else x :: erase (b ++ c) k := rfl
        rw [hx, if_neg (fun h => hb.1 h.symm), ih hb.2, List.cons_append]
    split
    · rename_i hc
      rw [List.getLast?_concat, List.dropLast_concat]
      simp only
      split
      · rename_i hl
        rw [happ a [l] (by rw [← hl]; exact hwf.2)]
        unfold erase
        rw [if_pos hl]
        simp
      · rename_i hl
        have hmem : k ∈ keys a := by
          by_contra hn
          rw [contains, Option.isSome_iff_ne_none, ne_eq, get?_eq_none_iff] at hc
          apply hc
          simp only [keys, List.map_append, List.mem_append, not_or]
          exact ⟨hn, by simpa using fun h => hl h.symm⟩
        -- a = x ++ (k, v) :: y
        clear hc wf
        have hgo : ∀ b : IMap K V, (keys b).Nodup → k ∈ keys b →
            (b.map fun p => if p.1 = k then l else p).Perm (erase (b ++ [l]) k) := by
          intro b
          induction b with
          | nil => intro _ h; simp at h
          | cons x b ih =>
            intro hn hk
            rw [keys_cons, List.nodup_cons] at hn
            by_cases hx : x.1 = k
            · subst hx
              rw [List.cons_append]
              unfold erase
              rw [if_pos rfl, List.map_cons, if_pos rfl]
              have : (b.map fun p => if p.1 = x.1 then l else p) = b := by
                have h2 : ∀ p ∈ b, (if p.1 = x.1 then l else p) = p := by
                  intro p hp
                  rw [if_neg]
                  intro he
                  exact hn.1 (by rw [← he]; exact List.mem_map_of_mem hp)
                rw [List.map_congr_left h2, List.map_id']
              rw [this]
              exact (List.perm_append_comm (l₁ := [l]) (l₂ := b))
            · rw [keys_cons, List.mem_cons] at hk
              rcases hk with hk | hk
              · exact absurd hk.symm hx
              · rw [List.map_cons, if_neg hx, List.cons_append]
                unfold erase
                rw [if_neg hx]
                exact (ih hn.2 hk).cons x
        exact hgo a hwf.1 hmem
    · rename_i hc
      rw [hnot]
      rw [contains, Option.isSome_iff_ne_none, ne_eq, not_not, get?_eq_none_iff] at hc
      exact hc

theorem wf_swapRemove {m : IMap K V} (wf : WF m) (k : K) : WF (swapRemove m k) := by
  have h1 := wf_erase wf k
  have h2 := (swapRemove_perm wf k).map Prod.fst
  unfold WF keys at *
  exact h2.nodup_iff.2 h1

theorem get?_swapRemove {m : IMap K V} (wf : WF m) (k k2 : K) :
    get? (swapRemove m k) k2 = if k2 = k then none else get? m k2 := by
  rw [get?_perm (wf_swapRemove wf k) (swapRemove_perm wf k), get?_erase wf]

end IMap

namespace Cli
variable {N L J C T : Type}

theorem andThen_true {a : World N L J × Bool} {f : World N L J → World N L J × Bool} (h : a.2 = true) :
    andThen a f = f a.1 := by simp [andThen, h]

theorem andThen_false {a : World N L J × Bool} {f : World N L J → World N L J × Bool} (h : a.2 = false) :
    andThen a f = a := by simp [andThen, h]

/-- a property of the project that every step keeps is kept by both -/
theorem andThen_keep {α : Type} (F : World N L J → α) {a : World N L J × Bool} {f : World N L J → World N L J × Bool}
    {x : α} (h1 : F a.1 = x) (h2 : ∀ w, F w = x → F (f w).1 = x) : F (andThen a f).1 = x := by
  unfold andThen
  split
  · exact h2 _ h1
  · exact h1

theorem rebuild_lock (o : Opts) (st : Steps N L J C T) (t : T) (w : World N L J) :
    (rebuild o st t w).1.lock = w.lock ∧ (rebuild o st t w).1.pkg = w.pkg := by
  have hm : ∀ e w, (maybeEvent o st t e w).1.lock = (w : World N L J).lock ∧ (maybeEvent o st t e w).1.pkg = w.pkg := by
    intro e w
    unfold maybeEvent
    split <;> exact ⟨rfl, rfl⟩
  constructor
  · unfold rebuild
    refine andThen_keep World.lock (hm _ _).1 fun w h => ?_
    refine andThen_keep World.lock h fun w h => ?_
    refine andThen_keep World.lock (by rw [(hm _ _).1, h]) fun w h => by rw [(hm _ _).1, h]
  · unfold rebuild
    refine andThen_keep World.pkg (hm _ _).2 fun w h => ?_
    refine andThen_keep World.pkg h fun w h => ?_
    refine andThen_keep World.pkg (by rw [(hm _ _).2, h]) fun w h => by rw [(hm _ _).2, h]

theorem install_lock (o : Opts) (st : Steps N L J C T) (t : T) (w : World N L J) :
    (stepInstall o st t w).1.lock = w.lock ∧ (stepInstall o st t w).1.pkg = w.pkg := by
  unfold stepInstall
  split
  · exact ⟨rfl, rfl⟩
  · constructor
    · refine andThen_keep World.lock rfl fun w h => ?_
      exact andThen_keep World.lock h fun w h => by rw [(rebuild_lock o st t w).1, h]
    · refine andThen_keep World.pkg rfl fun w h => ?_
      exact andThen_keep World.pkg h fun w h => by rw [(rebuild_lock o st t w).2, h]

theorem rebuild_ran (o : Opts) (st : Steps N L J C T) (t : T) (w : World N L J) (ho : o.scripts = false) :
    (rebuild o st t w).1.ran = w.ran := by
  have hm : ∀ e w, maybeEvent o st t e w = ((w : World N L J), true) := by
    intro e w; simp [maybeEvent, ho]
  unfold rebuild
  refine andThen_keep World.ran (by rw [hm]) fun w h => ?_
  refine andThen_keep World.ran h fun w h => ?_
  exact andThen_keep World.ran (by rw [hm]; exact h) fun w h => by rw [hm]; exact h

theorem install_ran (o : Opts) (st : Steps N L J C T) (t : T) (w : World N L J) (ho : o.scripts = false) :
    (stepInstall o st t w).1.ran = w.ran := by
  unfold stepInstall
  split
  · rfl
  · refine andThen_keep World.ran rfl fun w h => ?_
    exact andThen_keep World.ran h fun w h => by rw [rebuild_ran o st t w ho, h]

/-! ### editing -/

theorem wf_removeIn {v : Json} (hw : WFJson v) (name ty : Str) : WFJson (removeIn name v ty) := by
  unfold removeIn
  cases v with
  | obj m =>
    have hm := hw m rfl
    simp only
    cases hg : IMap.get? m ty with
    | none => exact hw
    | some d =>
      cases d with
      | obj d =>
        intro m' he
        cases he
        refine ⟨IMap.wf_insert hm.1 _ _, ?_⟩
        intro k d' hd'
        rw [IMap.get?_insert] at hd'
        split at hd'
        · cases hd'; exact IMap.wf_swapRemove (hm.2 _ _ hg) _
        · exact hm.2 _ _ hd'
      | _ => exact hw
  | _ => exact hw

theorem index_removeIn {v : Json} (name ty k : Str) (hk : k ≠ ty) : (removeIn name v ty).index k = v.index k := by
  unfold removeIn
  cases v with
  | obj m =>
    simp only
    cases hg : IMap.get? m ty with
    | none => rfl
    | some d =>
      cases d with
      | obj d => simp only [Json.index, IMap.get?_insert, if_neg hk]
      | _ => rfl
  | _ => rfl

theorem entry_removeIn {v : Json} (hw : WFJson v) (name ty k n : Str) :
    entry (removeIn name v ty) k n = if k = ty ∧ n = name then none else entry v k n := by
  by_cases hk : k = ty
  · subst hk
    unfold removeIn
    cases v with
    | obj m =>
      simp only
      cases hg : IMap.get? m k with
      | none => simp [entry, Json.index, hg]
      | some d =>
        cases d with
        | obj d =>
          simp only [entry, Json.index, IMap.get?_insert, if_true, Option.getD_some, hg,
            IMap.get?_swapRemove ((hw m rfl).2 _ _ hg), true_and]
        | _ => simp [entry, Json.index, hg]
    | _ => simp [entry, Json.index]
  · rw [entry, index_removeIn name ty k hk, if_neg (fun h => hk h.1)]
    rfl

/-- what removing does to every entry and to every other part of package.json -/
theorem removeFrom_spec {v : Json} (hw : WFJson v) (name : Str) :
    WFJson (removeFrom v name) ∧ (∀ k, k ∉ sections → (removeFrom v name).index k = v.index k) ∧
    ∀ k n, entry (removeFrom v name) k n = if k ∈ sections ∧ n = name then none else entry v k n := by
  unfold removeFrom
  have : ∀ (l : List Str) (v : Json), WFJson v → WFJson (l.foldl (removeIn name) v) ∧
      (∀ k, k ∉ l → (l.foldl (removeIn name) v).index k = v.index k) ∧
      ∀ k n, entry (l.foldl (removeIn name) v) k n = if k ∈ l ∧ n = name then none else entry v k n := by
    intro l
    induction l with
    | nil => intro v hv; exact ⟨hv, fun _ _ => rfl, fun k n => by simp⟩
    | cons ty l ih =>
      intro v hv
      obtain ⟨h1, h2, h3⟩ := ih _ (wf_removeIn hv name ty)
      refine ⟨h1, ?_, ?_⟩
      · intro k hk
        simp only [List.mem_cons, not_or] at hk
        rw [List.foldl_cons, h2 k hk.2, index_removeIn name ty k hk.1]
      · intro k n
        rw [List.foldl_cons, h3, entry_removeIn hv]
        simp only [List.mem_cons]
        by_cases hn : n = name
        · by_cases hkl : k ∈ l <;> by_cases hkt : k = ty <;> simp [hn, hkl, hkt]
        · simp [hn]
  exact this sections v hw

/-- what `value[a][b] = x` does -/
theorem set2_spec {v v' : Json} (hw : WFJson v) {a b : Str} {x : Json} (h : v.set2 a b x = some v') :
    WFJson v' ∧ (∀ k, k ≠ a → v'.index k = v.index k) ∧
    ∀ k n, entry v' k n = if k = a ∧ n = b then some x else entry v k n := by
  unfold Json.set2 at h
  obtain ⟨m, hm, h2⟩ := Option.bind_eq_some_iff.1 h
  obtain ⟨d, hd, rfl⟩ := Option.map_eq_some_iff.1 h2
  -- the maps it starts from
  have hmw : IMap.WF m ∧ (∀ k d, IMap.get? m k = some (.obj d) → IMap.WF d) ∧ ∀ k, v.index k = (IMap.get? m k).getD .null := by
    cases v with
    | obj m' => cases hm; exact ⟨(hw _ rfl).1, (hw _ rfl).2, fun _ => rfl⟩
    | null => cases hm; exact ⟨IMap.wf_nil, fun _ _ h => (by simp at h), fun _ => rfl⟩
    | _ => cases hm
  have hdw : IMap.WF d ∧ ∀ n, entry v a n = IMap.get? d n := by
    have hi := hmw.2.2 a
    unfold entry
    rw [hi]
    cases hg : IMap.get? m a with
    | none => rw [hg] at hd; cases hd; exact ⟨IMap.wf_nil, fun _ => rfl⟩
    | some j =>
      rw [hg] at hd
      cases j with
      | obj d' => cases hd; exact ⟨hmw.2.1 _ _ hg, fun _ => rfl⟩
      | null => cases hd; exact ⟨IMap.wf_nil, fun _ => rfl⟩
      | _ => cases hd
  refine ⟨?_, ?_, ?_⟩
  · intro m' he
    cases he
    refine ⟨IMap.wf_insert hmw.1 _ _, ?_⟩
    intro k d' hd'
    rw [IMap.get?_insert] at hd'
    split at hd'
    · cases hd'; exact IMap.wf_insert hdw.1 _ _
    · exact hmw.2.1 _ _ hd'
  · intro k hk
    rw [hmw.2.2 k]
    simp only [Json.index, IMap.get?_insert, if_neg hk]
  · intro k n
    by_cases hk : k = a
    · subst hk
      simp only [entry, Json.index, IMap.get?_insert, if_true, Option.getD_some, true_and]
      split
      · rfl
      · have := hdw.2 n
        unfold entry at this
        rw [← this]
        rfl
    · rw [if_neg (fun h => hk h.1)]
      unfold entry
      rw [hmw.2.2 k]
      simp only [Json.index, IMap.get?_insert, if_neg hk]

end Cli
end Oro
