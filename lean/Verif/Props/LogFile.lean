import Verif.Model.LogFile
import Mathlib.Data.List.Nodup
import Mathlib.Data.List.Perm.Subperm
/- C85: the debug log of a run. -/

set_option linter.unusedSectionVars false

namespace Oro
namespace LogFile

theorem digits_inj {i j : Nat} (h : Nat.toDigits 10 i = Nat.toDigits 10 j) : i = j := by
  have hi := Nat.ofDigitChars_ten_toDigits (n := i)
  have hj := Nat.ofDigitChars_ten_toDigits (n := j)
  rw [h, hj] at hi
  exact hi.symm

theorem dash_digits {i : Nat} : '-' ∉ Nat.toDigits 10 i := by
  intro h
  have := Nat.isDigit_of_mem_toDigits (by decide) (by decide) h
  revert this; decide

/-- splitting at the last occurrence -/
theorem last_split {c : Char} {a a' b b' : Str} (h : a ++ c :: b = a' ++ c :: b') (hb : c ∉ b) (hb' : c ∉ b') : a = a' ∧ b = b' := by
  have hr := congrArg List.reverse h
  simp only [List.reverse_append, List.reverse_cons, List.append_assoc, List.cons_append, List.nil_append] at hr
  have key : ∀ (x x' y y' : Str), c ∉ x → c ∉ x' → x ++ c :: y = x' ++ c :: y' → x = x' ∧ y = y' := by
    intro x
    induction x with
    | nil =>
      intro x' y y' _ hx' h
      cases x' with
      | nil => cases h; exact ⟨rfl, rfl⟩
      | cons d x' => simp only [List.nil_append, List.cons_append, List.cons.injEq] at h; rw [h.1] at hx'; simp at hx'
    | cons d x ih =>
      intro x' y y' hx hx' h
      cases x' with
      | nil => simp only [List.nil_append, List.cons_append, List.cons.injEq] at h; rw [← h.1] at hx; simp at hx
      | cons d' x' =>
        simp only [List.cons_append, List.cons.injEq] at h
        obtain ⟨rfl, h⟩ := h
        obtain ⟨h1, h2⟩ := ih x' y y' (fun hm => hx (List.mem_cons_of_mem _ hm)) (fun hm => hx' (List.mem_cons_of_mem _ hm)) h
        exact ⟨by rw [h1], h2⟩
  obtain ⟨h1, h2⟩ := key b.reverse b'.reverse a.reverse a'.reverse (by simpa using hb) (by simpa using hb') hr
  exact ⟨List.reverse_injective h2, List.reverse_injective h1⟩

/-- names of logs tell the time and the number -/
theorem nameOf_inj {s s' : Str} {i j : Nat} (h : nameOf s i = nameOf s' j) : s = s' ∧ i = j := by
  unfold nameOf at h
  have h := List.append_cancel_right h
  simp only [List.append_assoc, List.cons_append, List.nil_append, List.cons.injEq, true_and] at h
  obtain ⟨h1, h2⟩ := last_split h dash_digits dash_digits
  exact ⟨h1, digits_inj h2⟩

/-- **C85**: the name is one of this time, and no file of the working directory has it. -/
theorem C85_free (here : List Str) (stamp : Str) : ∃ i, logName here stamp = nameOf stamp i ∧ logName here stamp ∉ here ∧
    ∀ j < i, nameOf stamp j ∈ here := by
  have hsome : ∃ i, (List.range (here.length + 1)).find? (fun i => !here.contains (nameOf stamp i)) = some i := by
    cases h : (List.range (here.length + 1)).find? (fun i => !here.contains (nameOf stamp i)) with
    | some i => exact ⟨i, rfl⟩
    | none =>
      exfalso
      rw [List.find?_eq_none] at h
      have hsub : (List.range (here.length + 1)).map (nameOf stamp) ⊆ here := by
        intro x hx
        obtain ⟨i, hi, rfl⟩ := List.mem_map.1 hx
        simpa using h i hi
      have hnd : ((List.range (here.length + 1)).map (nameOf stamp)).Nodup :=
        List.Nodup.map (fun i j hij => (nameOf_inj hij).2) List.nodup_range
      have := (List.subperm_of_subset hnd hsub).length_le
      simp only [List.length_map, List.length_range] at this
      omega
  obtain ⟨i, hi⟩ := hsome
  have hn : logName here stamp = nameOf stamp i := by unfold logName; rw [hi]; rfl
  have hfree : nameOf stamp i ∉ here := by simpa using List.find?_some hi
  refine ⟨i, hn, by rw [hn]; exact hfree, fun j hj => ?_⟩
  obtain ⟨_, hmin⟩ := List.find?_range_eq_some.1 hi
  simpa using hmin.2 j hj

/-- **C85**: runs that start in different milliseconds have different logs. -/
theorem C85_apart_partial (r r' : Run) (h : r.stamp ≠ r'.stamp) : logName r.here r.stamp ≠ logName r'.here r'.stamp := by
  obtain ⟨i, hi, _⟩ := C85_free r.here r.stamp
  obtain ⟨j, hj, _⟩ := C85_free r'.here r'.stamp
  rw [hi, hj]
  exact fun he => h (nameOf_inj he).1

/-- so a run leaves all other logs as they are, and its own begins with nothing, if no log of its time is there -/
theorem C85_own_partial (logs : List (Str × List Str)) (r : Run) (lines : List Str)
    (h : ∀ e ∈ logs, ∀ i, e.1 ≠ nameOf r.stamp i) : writeLog logs r lines = logs ++ [(logName r.here r.stamp, lines)] := by
  obtain ⟨i, hi, _⟩ := C85_free r.here r.stamp
  unfold writeLog
  simp only
  rw [if_neg]
  rw [Bool.not_eq_true, List.any_eq_false]
  intro e he
  rw [hi]
  simpa using h e he i

/-- **C85 fails** for runs that start in the same millisecond: whether the name is free is checked in the working directory,
not in the folder of the logs. Two such runs, anywhere outside that folder, write into the same log, whatever is there. -/
theorem C85_shared_fails (logs : List (Str × List Str)) (r r' : Run) (h : r'.stamp = r.stamp) (hr : nameOf r.stamp 0 ∉ r.here)
    (hr' : nameOf r.stamp 0 ∉ r'.here) (lines lines' : List Str) (hl : ∀ e ∈ logs, e.1 ≠ nameOf r.stamp 0) :
    writeLog (writeLog logs r lines) r' lines' = logs ++ [(nameOf r.stamp 0, lines ++ lines')] := by
  have h0 : ∀ (here : List Str), nameOf r.stamp 0 ∉ here → logName here r.stamp = nameOf r.stamp 0 := by
    intro here hh
    obtain ⟨i, hi, _, hmin⟩ := C85_free here r.stamp
    cases i with
    | zero => exact hi
    | succ i => exact absurd (hmin 0 (by omega)) hh
  have e1 : writeLog logs r lines = logs ++ [(nameOf r.stamp 0, lines)] := by
    unfold writeLog
    simp only
    rw [h0 _ hr, if_neg]
    rw [Bool.not_eq_true, List.any_eq_false]
    intro e he
    simpa using hl e he
  rw [e1]
  unfold writeLog
  simp only
  rw [h, h0 _ hr', if_pos (by simp)]
  simp only [List.map_append, List.map_cons, List.map_nil, if_true]
  congr 1
  exact (List.map_congr_left fun e he => if_neg (hl e he)).trans (List.map_id _)

/-- two runs in an empty directory, at the same time and at different times -/
example : writeLog (writeLog [] ⟨[], ['t']⟩ [['a']]) ⟨[], ['t']⟩ [['b']] = [(nameOf ['t'] 0, [['a'], ['b']])] ∧
    (writeLog (writeLog [] ⟨[], ['t']⟩ [['a']]) ⟨[], ['u']⟩ [['b']]).length = 2 := by decide +kernel

end LogFile
end Oro
