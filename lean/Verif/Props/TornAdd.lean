import Verif.Props.TornJson
import Verif.Proofs.Cli
/- C103 for what `oro add` and `oro remove` write. -/

set_option linter.unusedSectionVars false

namespace Oro
namespace PJson
open Cli

theorem okMembers_iff (m : List (Str × Json)) : okMembers m = true ↔ ∀ p ∈ m, Ok p.2 = true := by
  induction m with
  | nil => simp [okMembers]
  | cons p l ih =>
    obtain ⟨k, v⟩ := p
    rw [okMembers, okMember, Bool.and_eq_true, ih]
    simp

theorem ok_obj (m : List (Str × Json)) : Ok (.obj m) = true ↔ IMap.WF m ∧ ∀ p ∈ m, Ok p.2 = true := by
  rw [Ok, Bool.and_eq_true, okMembers_iff, decide_eq_true_eq]
  rfl

theorem mem_insert_val {m : List (Str × Json)} {k : Str} {v : Json} {p : Str × Json} (h : p ∈ IMap.insert m k v) : p.2 = v ∨ p ∈ m := by
  rcases IMap.mem_insert h with h | h
  · exact .inl (by rw [h])
  · exact .inr h

theorem mem_of_erase {m : List (Str × Json)} {k : Str} {p : Str × Json} (h : p ∈ IMap.erase m k) : p ∈ m := by
  induction m with
  | nil => exact h
  | cons a m ih =>
    obtain ⟨k', v'⟩ := a
    unfold IMap.erase at h
    split at h
    · exact List.mem_cons_of_mem _ h
    · rcases List.mem_cons.1 h with h | h
      · exact h ▸ List.mem_cons_self
      · exact List.mem_cons_of_mem _ (ih h)

theorem ok_insert {m : List (Str × Json)} {k : Str} {v : Json} (hm : Ok (.obj m) = true) (hv : Ok v = true) : Ok (.obj (IMap.insert m k v)) = true := by
  rw [ok_obj] at hm ⊢
  refine ⟨IMap.wf_insert hm.1 _ _, fun p hp => ?_⟩
  rcases mem_insert_val hp with h | h
  · rw [h]; exact hv
  · exact hm.2 p h

theorem ok_get {m : List (Str × Json)} {k : Str} {v : Json} (hm : Ok (.obj m) = true) (h : IMap.get? m k = some v) : Ok v = true :=
  ((ok_obj m).1 hm).2 _ (IMap.mem_of_get? h)

theorem ok_swapRemove {m : List (Str × Json)} {k : Str} (hm : Ok (.obj m) = true) : Ok (.obj (IMap.swapRemove m k)) = true := by
  rw [ok_obj] at hm ⊢
  refine ⟨IMap.wf_swapRemove hm.1 k, fun p hp => ?_⟩
  have := (IMap.swapRemove_perm hm.1 k).mem_iff.1 hp
  exact hm.2 p (mem_of_erase this)

theorem ok_removeIn {v : Json} (h : Ok v = true) (name ty : Str) : Ok (removeIn name v ty) = true := by
  unfold removeIn
  cases v with
  | obj m =>
    simp only
    cases hg : IMap.get? m ty with
    | none => exact h
    | some d =>
      cases d with
      | obj d => exact ok_insert h (ok_swapRemove (ok_get h hg))
      | _ => exact h
  | _ => exact h

theorem ok_removeFrom {v : Json} (h : Ok v = true) (name : Str) : Ok (removeFrom v name) = true := by
  unfold removeFrom
  generalize sections = l
  induction l generalizing v with
  | nil => exact h
  | cons ty l ih => exact ih (ok_removeIn h name ty)

theorem removeFrom_obj {m : List (Str × Json)} (name : Str) : ∃ m', removeFrom (.obj m) name = .obj m' := by
  unfold removeFrom
  generalize sections = l
  induction l generalizing m with
  | nil => exact ⟨m, rfl⟩
  | cons ty l ih =>
    rw [List.foldl_cons]
    have : ∃ m', removeIn name (.obj m) ty = .obj m' := by
      unfold removeIn
      simp only
      split
      · exact ⟨_, rfl⟩
      · exact ⟨m, rfl⟩
    obtain ⟨m', h⟩ := this
    rw [h]
    exact ih

theorem asMap_ok {v : Json} {m : List (Str × Json)} (h : v.asMap = some m) (hv : Ok v = true) : Ok (.obj m) = true := by
  cases v with
  | obj m' => cases h; exact hv
  | null => cases h; rw [ok_obj]; exact ⟨IMap.wf_nil, by simp⟩
  | _ => cases h

theorem set2_ok {v w : Json} {a b : Str} {x : Json} (hv : Ok v = true) (hx : Ok x = true) (h : v.set2 a b x = some w) :
    Ok w = true ∧ ∃ m, w = .obj m := by
  unfold Json.set2 at h
  obtain ⟨m, hm, h2⟩ := Option.bind_eq_some_iff.1 h
  obtain ⟨d, hd, rfl⟩ := Option.map_eq_some_iff.1 h2
  have h1 := asMap_ok hm hv
  refine ⟨ok_insert h1 (ok_insert (asMap_ok hd ?_) hx), _, rfl⟩
  cases hg : IMap.get? m a with
  | none => rfl
  | some e => exact ok_get h1 hg

theorem addAll_ok (kind : Str) : ∀ (ps : List (Str × Str)) (v w : Json), ps ≠ [] → Ok v = true → addAll kind v ps = some w →
    Ok w = true ∧ ∃ m, w = .obj m := by
  intro ps
  induction ps with
  | nil => intro v w h; exact absurd rfl h
  | cons p l ih =>
    intro v w _ hv h
    unfold addAll at h ih
    rw [List.foldl_cons, Option.bind_some] at h
    cases h1 : addOne kind v p with
    | none =>
      rw [h1] at h
      have : ∀ l : List (Str × Str), l.foldl (fun v p => v.bind fun v => addOne kind v p) (none : Option Json) = none := by
        intro l
        induction l with
        | nil => rfl
        | cons a l ih => exact ih
      rw [this] at h
      cases h
    | some v' =>
      rw [h1] at h
      have hv' := set2_ok (ok_removeFrom hv p.1) rfl h1
      cases l with
      | nil => cases h; exact hv'
      | cons q l => exact ih v' w (by simp) hv'.1 h

/-- **C103** for `oro add`: interrupted while it writes the package.json to which it added some packages, it leaves no JSON, or
the whole document. -/
theorem C103_add (parse : Str → Option Json) (hr : Reads parse) (hs : Strict parse) (old : Str) (f : Formatted) (h : fromStr parse old = some f)
    (hf : Ok f.value = true) (kind : Str) (ps : List (Str × Str)) (hps : ps ≠ []) (v : Json) (hv : addAll kind f.value ps = some v)
    (p : Str) (hp : p <+: toStringPretty { f with value := v }) : parse p = none ∨ parse p = some v := by
  obtain ⟨h1, m, rfl⟩ := addAll_ok kind ps f.value v hps hf hv
  rcases C103_torn parse hr hs old f h m h1 p hp with h2 | ⟨h2, _⟩
  · exact .inl h2
  · exact .inr h2

/-- **C103** for `oro remove`, likewise. -/
theorem C103_remove (parse : Str → Option Json) (hr : Reads parse) (hs : Strict parse) (old : Str) (f : Formatted) (h : fromStr parse old = some f)
    (m : List (Str × Json)) (hm : f.value = .obj m) (hf : Ok f.value = true) (names : List Str)
    (p : Str) (hp : p <+: toStringPretty { f with value := names.foldl removeFrom f.value }) :
    parse p = none ∨ parse p = some (names.foldl removeFrom f.value) := by
  have key : ∀ (names : List Str) (m : List (Str × Json)), Ok (.obj m) = true → ∃ m', names.foldl removeFrom (.obj m) = .obj m' ∧ Ok (.obj m') = true := by
    intro names
    induction names with
    | nil => intro m hm; exact ⟨m, rfl, hm⟩
    | cons n l ih =>
      intro m hm
      obtain ⟨m', e⟩ := removeFrom_obj (m := m) n
      rw [List.foldl_cons, e]
      exact ih m' (e ▸ ok_removeFrom hm n)
  obtain ⟨m', e, ok'⟩ := key names m (hm ▸ hf)
  rw [hm, e] at hp ⊢
  rcases C103_torn parse hr hs old f h m' ok' p hp with h2 | ⟨h2, _⟩
  · exact .inl h2
  · exact .inr h2

/-- the hypotheses are met: adding `b` to {"a":1} -/
example : addAll kDeps sample [(['b'], ['2'])] = some (.obj [(['a'], .num ['1']), (kDeps, .obj [(['b'], .str ['2'])])]) := by
  rfl

end PJson
end Oro
