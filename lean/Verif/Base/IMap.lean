import Mathlib.Data.List.Nodup
/-
Insertion-ordered maps, the Lean counterpart of `indexmap::IndexMap`.

Used by /repo/crates/node-maintainer/src/graph.rs:34-54, resolver.rs:78, lockfile.rs:22-27 and others.
`IndexMap` is an external crate; we model the operations orogene uses: `get`, `contains_key`, `insert`
(which keeps the position of an existing key), `remove`, iteration in insertion order, and `collect`.
-/

set_option linter.unusedSectionVars false

namespace Oro

/-- `IndexMap<K, V>` as an association list in insertion order.  Well-formed maps have distinct keys (`IMap.WF`). -/
abbrev IMap (K V : Type) := List (K × V)

namespace IMap
variable {K V : Type} [DecidableEq K]

/-- `IndexMap::get` -/
def get? : IMap K V → K → Option V
  | [], _ => none
  | (k', v) :: m, k => if k' = k then some v else get? m k

/-- `IndexMap::contains_key` -/
def contains (m : IMap K V) (k : K) : Bool := (get? m k).isSome

/-- `IndexMap::insert`: replaces the value in place when the key exists, appends otherwise. -/
def insert : IMap K V → K → V → IMap K V
  | [], k, v => [(k, v)]
  | (k', v') :: m, k, v => if k' = k then (k', v) :: m else (k', v') :: insert m k v

/-- `IndexMap::remove` (order is irrelevant for every use in orogene). -/
def erase : IMap K V → K → IMap K V
  | [], _ => []
  | (k', v) :: m, k => if k' = k then m else (k', v) :: erase m k

/-- `Iterator::collect::<IndexMap>` -/
def ofList (l : List (K × V)) : IMap K V := l.foldl (fun m kv => insert m kv.1 kv.2) []

/-- The keys in insertion order. -/
def keys (m : IMap K V) : List K := m.map Prod.fst

/-- Keys are distinct: holds of every map built by `insert`. -/
def WF (m : IMap K V) : Prop := (keys m).Nodup

@[simp] theorem get?_nil (k : K) : get? ([] : IMap K V) k = none := rfl
@[simp] theorem keys_nil : keys ([] : IMap K V) = [] := rfl
@[simp] theorem keys_cons (a : K × V) (m : IMap K V) : keys (a :: m) = a.1 :: keys m := rfl

theorem get?_insert_self (m : IMap K V) (k : K) (v : V) : get? (insert m k v) k = some v := by
  induction m with
  | nil => simp [insert, get?]
  | cons a m ih =>
    obtain ⟨k', v'⟩ := a
    by_cases h : k' = k <;> simp [insert, get?, h, ih]

theorem get?_insert_ne (m : IMap K V) {k k2 : K} (v : V) (h : k2 ≠ k) :
    get? (insert m k v) k2 = get? m k2 := by
  induction m with
  | nil => simp [insert, get?, Ne.symm h]
  | cons a m ih =>
    obtain ⟨k', v'⟩ := a
    by_cases h1 : k' = k
    · subst h1; simp [insert, get?, Ne.symm h]
    · simp only [insert, h1, if_false, get?, ih]

theorem get?_insert (m : IMap K V) (k k2 : K) (v : V) :
    get? (insert m k v) k2 = if k2 = k then some v else get? m k2 := by
  by_cases h : k2 = k
  · subst h; simp [get?_insert_self]
  · simp [h, get?_insert_ne _ _ h]

theorem get?_eq_none_iff (m : IMap K V) (k : K) : get? m k = none ↔ k ∉ keys m := by
  induction m with
  | nil => simp
  | cons a m ih =>
    obtain ⟨k', v⟩ := a
    by_cases h : k' = k
    · simp [get?, h]
    · simp [get?, h, ih, Ne.symm h]

theorem mem_of_get? {m : IMap K V} {k : K} {v : V} (h : get? m k = some v) : (k, v) ∈ m := by
  induction m with
  | nil => simp at h
  | cons a m ih =>
    obtain ⟨k', v'⟩ := a
    by_cases h1 : k' = k
    · simp [get?, h1] at h; subst h1; subst h; simp
    · simp [get?, h1] at h; exact List.mem_cons_of_mem _ (ih h)

theorem mem_keys_of_mem {m : IMap K V} {k : K} {v : V} (h : (k, v) ∈ m) : k ∈ keys m :=
  List.mem_map.mpr ⟨(k, v), h, rfl⟩

theorem get?_of_mem {m : IMap K V} (wf : WF m) {k : K} {v : V} (h : (k, v) ∈ m) :
    get? m k = some v := by
  induction m with
  | nil => simp at h
  | cons a m ih =>
    obtain ⟨k', v'⟩ := a
    simp only [WF, keys_cons, List.nodup_cons] at wf
    rcases List.mem_cons.mp h with h1 | h1
    · injection h1 with h1 h2; subst h1; subst h2; simp [get?]
    · have : k' ≠ k := fun e => wf.1 (e ▸ mem_keys_of_mem h1)
      simp [get?, this]; exact ih wf.2 h1

theorem keys_insert (m : IMap K V) (k : K) (v : V) :
    keys (insert m k v) = if k ∈ keys m then keys m else keys m ++ [k] := by
  induction m with
  | nil => simp [insert]
  | cons a m ih =>
    obtain ⟨k', v'⟩ := a
    by_cases h : k' = k
    · simp [insert, h]
    · simp only [insert, h, if_false, keys_cons, ih, List.mem_cons, Ne.symm h, false_or]
      split <;> simp

theorem wf_nil : WF ([] : IMap K V) := List.nodup_nil

theorem wf_insert {m : IMap K V} (wf : WF m) (k : K) (v : V) : WF (insert m k v) := by
  unfold WF; rw [keys_insert]
  split
  · exact wf
  · rename_i h
    rw [List.nodup_append]
    refine ⟨wf, by simp, ?_⟩
    intro a ha b hb
    simp at hb; subst hb
    exact fun e => h (e ▸ ha)

theorem keys_erase_subset (m : IMap K V) (k : K) : ∀ x ∈ keys (erase m k), x ∈ keys m := by
  induction m with
  | nil => simp [erase]
  | cons a m ih =>
    obtain ⟨k', v'⟩ := a
    intro x hx
    by_cases h : k' = k
    · simp only [erase, h, if_true] at hx; exact List.mem_cons_of_mem _ hx
    · simp only [erase, h, if_false, keys_cons, List.mem_cons] at hx ⊢
      rcases hx with h1 | h1
      · exact Or.inl h1
      · exact Or.inr (ih x h1)

theorem wf_erase {m : IMap K V} (wf : WF m) (k : K) : WF (erase m k) := by
  induction m with
  | nil => exact wf
  | cons a m ih =>
    obtain ⟨k', v'⟩ := a
    have wf' := wf
    simp only [WF, keys_cons, List.nodup_cons] at wf
    by_cases h : k' = k
    · simp only [erase, h, if_true]; exact wf.2
    · simp only [erase, h, if_false, WF, keys_cons, List.nodup_cons]
      exact ⟨fun hc => wf.1 (keys_erase_subset m k _ hc), ih wf.2⟩

theorem get?_erase {m : IMap K V} (wf : WF m) (k k2 : K) :
    get? (erase m k) k2 = if k2 = k then none else get? m k2 := by
  induction m with
  | nil => simp [erase]
  | cons a m ih =>
    obtain ⟨k', v'⟩ := a
    simp only [WF, keys_cons, List.nodup_cons] at wf
    by_cases h : k' = k
    · subst h
      by_cases h2 : k2 = k'
      · subst h2; simp [erase, (get?_eq_none_iff m k2).mpr wf.1]
      · simp [erase, h2, get?, Ne.symm h2]
    · by_cases h2 : k' = k2
      · subst h2; simp [erase, h, get?]
      · simp [erase, h, get?, h2, ih wf.2]

theorem wf_ofList (l : List (K × V)) : WF (ofList l) := by
  unfold ofList
  suffices ∀ (m : IMap K V), WF m → WF (l.foldl (fun m kv => insert m kv.1 kv.2) m) from this [] wf_nil
  induction l with
  | nil => intro m h; exact h
  | cons a l ih => intro m h; exact ih _ (wf_insert h _ _)

theorem mem_insert {m : IMap K V} {k : K} {v : V} {kv : K × V} (h : kv ∈ insert m k v) :
    kv = (k, v) ∨ kv ∈ m := by
  induction m with
  | nil => simp [insert] at h; exact Or.inl h
  | cons a m ih =>
    obtain ⟨k', v'⟩ := a
    by_cases h1 : k' = k
    · simp only [insert, h1, if_true, List.mem_cons] at h
      rcases h with h | h
      · exact Or.inl h
      · exact Or.inr (List.mem_cons_of_mem _ h)
    · simp only [insert, h1, if_false, List.mem_cons] at h
      rcases h with h | h
      · exact Or.inr (by simp [h])
      · rcases ih h with h | h
        · exact Or.inl h
        · exact Or.inr (List.mem_cons_of_mem _ h)

theorem get?_some_iff_mem {m : IMap K V} (wf : WF m) {k : K} {v : V} : get? m k = some v ↔ (k, v) ∈ m :=
  ⟨mem_of_get?, get?_of_mem wf⟩

theorem insert_of_notMem {m : IMap K V} {k : K} (v : V) (h : k ∉ keys m) : insert m k v = m ++ [(k, v)] := by
  induction m with
  | nil => rfl
  | cons a m ih =>
    simp only [keys_cons, List.mem_cons, not_or] at h
    simp [insert, Ne.symm h.1, ih h.2]

theorem foldl_insert_nodup (l m : IMap K V) (h : WF (m ++ l)) :
    l.foldl (fun m kv => insert m kv.1 kv.2) m = m ++ l := by
  induction l generalizing m with
  | nil => simp
  | cons a l ih =>
    have h1 : a.1 ∉ keys m := by
      simp only [WF, keys, List.map_append, List.map_cons] at h
      have := (List.nodup_append.mp h).2.2
      intro hc
      exact this a.1 hc a.1 (by simp) rfl
    simp only [List.foldl_cons]
    rw [insert_of_notMem _ h1, ih _ (by simpa using h)]
    simp

/-- collecting entries with distinct keys keeps them all, in order -/
theorem ofList_nodup {l : IMap K V} (h : WF l) : ofList l = l := foldl_insert_nodup l [] (by simpa using h)

theorem get?_perm {m m' : IMap K V} (wf : WF m) (hp : m.Perm m') (k : K) : get? m k = get? m' k := by
  have wf' : WF m' := ((hp.map Prod.fst).nodup_iff).mp wf
  cases h : get? m' k with
  | some v => exact get?_of_mem wf (hp.mem_iff.mpr (mem_of_get? h))
  | none =>
    rw [get?_eq_none_iff] at h ⊢
    exact fun hc => h ((hp.map Prod.fst).mem_iff.mp hc)

theorem perm_of_get? {m m' : IMap K V} (wf : WF m) (wf' : WF m') (h : ∀ k, get? m k = get? m' k) : m.Perm m' := by
  refine (List.perm_ext_iff_of_nodup (List.Nodup.of_map _ wf) (List.Nodup.of_map _ wf')).mpr ?_
  rintro ⟨k, v⟩
  rw [← get?_some_iff_mem wf, ← get?_some_iff_mem wf', h]

theorem get?_map {W : Type} (f : V → W) (m : IMap K V) (k : K) :
    get? (m.map fun p => (p.1, f p.2)) k = (get? m k).map f := by
  induction m with
  | nil => rfl
  | cons a m ih => simp only [List.map_cons, get?]; split <;> simp [*]

theorem wf_map {W : Type} {f : V → W} {m : IMap K V} (h : WF m) : WF (m.map fun p => (p.1, f p.2)) := by
  simpa [WF, keys, Function.comp_def] using h

end IMap
end Oro
