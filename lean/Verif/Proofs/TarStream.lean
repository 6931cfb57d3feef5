import Verif.Spec.Tarball
/-
Reading and buffering tarballs.
-/

set_option linter.unusedSectionVars false

namespace Oro
namespace Tar

theorem check_iff {digest : Nat → Bytes → Str} {i : Integrity} {b : Bytes} : i.check digest b = true ↔ Matches digest i b := by
  obtain ⟨l⟩ := i
  cases l with
  | nil => simp [Integrity.check, Matches]
  | cons x l =>
    obtain ⟨a, d⟩ := x
    simp only [Integrity.check, Matches, List.any_eq_true, decide_eq_true_eq, List.head?_cons, Option.map_some,
      Option.some.injEq, exists_eq_left']
    constructor
    · rintro ⟨⟨a', d'⟩, hm, h1, h2⟩; cases h1; dsimp only at h2 ⊢; rw [← h2]; exact hm
    · intro h; exact ⟨_, h, rfl, rfl⟩

theorem readAll_checked (digest : Nat → Bytes → Str) (i : Integrity) (evs : List Ev) (seen : Bytes) :
    Tarball.readAll digest ⟨some (i, seen), evs⟩ =
      match whole evs with
      | none => .error .io
      | some bs => if i.check digest (seen ++ bs) then .ok bs else .error .integrity := by
  induction evs generalizing seen with
  | nil =>
    by_cases h : i.check digest seen = true <;>
      simp [Tarball.readAll, readFrom, Tarball.pollRead, readEv, Tarball.feed, whole, h]
  | cons ev r ih =>
    simp only [Tarball.readAll] at ih
    match ev with
    | .fail => simp [Tarball.readAll, readFrom, Tarball.pollRead, readEv, whole]
    | .data [] =>
      by_cases h : i.check digest seen = true <;>
        simp [Tarball.readAll, readFrom, Tarball.pollRead, readEv, Tarball.feed, whole, h]
    | .data (a :: b) =>
      simp only [Tarball.readAll, readFrom, Tarball.pollRead, readEv, Tarball.feed, whole, ne_eq, reduceCtorEq,
        not_false_eq_true, ↓reduceIte]
      rw [ih]
      cases whole r with
      | none => rfl
      | some bs =>
        simp only [Option.map_some, List.append_assoc]
        by_cases hc : i.check digest (seen ++ (a :: b ++ bs)) = true
        · simp only [hc, ↓reduceIte]
        · simp only [hc]; rfl

theorem readAll_unchecked (digest : Nat → Bytes → Str) (evs : List Ev) :
    Tarball.readAll digest ⟨none, evs⟩ =
      match whole evs with
      | none => .error .io
      | some bs => .ok bs := by
  induction evs with
  | nil => rfl
  | cons ev r ih =>
    simp only [Tarball.readAll] at ih
    match ev with
    | .fail => rfl
    | .data [] => rfl
    | .data (a :: b) =>
      simp only [Tarball.readAll, readFrom, Tarball.pollRead, readEv, Tarball.feed, whole]
      rw [ih]
      cases whole r <;> rfl

theorem push_bytes (limit : Nat) (s : Temp) (b : Bytes) : (s.push limit b).bytes = s.bytes ++ b := by
  cases s with
  | memory v => simp only [Temp.push]; split <;> rfl
  | file v f => rfl

theorem bufferFrom_eq (digest : Nat → Bytes → Str) (limit : Nat) (evs : List Ev) (c : Option (Integrity × Bytes)) (s : Temp) :
    (∀ e, readFrom digest evs c = .error e → bufferFrom digest limit evs c s = .error e) ∧
    (∀ bs, readFrom digest evs c = .ok bs → (evs = [] → bs = []) →
      ∃ s', bufferFrom digest limit evs c s = .ok s' ∧ s'.bytes = s.bytes ++ bs) := by
  induction evs generalizing c s with
  | nil =>
    simp only [readFrom, bufferFrom]
    split
    · exact ⟨fun _ h => (by cases h; rfl), fun _ h => (by cases h)⟩
    · refine ⟨fun _ h => (by cases h), fun bs h hb => ⟨s, rfl, ?_⟩⟩
      rw [hb trivial]; simp
  | cons ev r ih =>
    simp only [readFrom, bufferFrom]
    split
    · exact ⟨fun _ h => (by cases h; rfl), fun _ h => (by cases h)⟩
    · exact ⟨fun _ h => (by cases h), fun bs h _ => (by cases h; exact ⟨s, rfl, by simp⟩)⟩
    · rename_i b t' hb hp
      have := ih t'.checker (s.push limit b)
      split <;> rename_i hr
      · exact ⟨fun e h => (by cases h; exact this.1 _ hr), fun _ h => (by cases h)⟩
      · refine ⟨fun _ h => (by cases h), fun bs h _ => ?_⟩
        cases h
        obtain ⟨s', h1, h2⟩ := this.2 _ hr (fun he => by
          subst he
          simp only [readFrom] at hr
          split at hr
          · cases hr
          · rename_i h'
            cases hr
            unfold Tarball.pollRead at h'
            simp only [readEv] at h'
            unfold Tarball.feed at h'
            split at h'
            · cases h'; rfl
            · simp only [ne_eq, not_true_eq_false, ↓reduceIte] at h'
              split at h' <;> cases h'
              rfl)
        exact ⟨s', h1, by rw [h2, push_bytes, List.append_assoc]⟩

/-- Buffering reads exactly what any other reader reads, and keeps it. -/
theorem intoTemp_eq (digest : Nat → Bytes → Str) (limit : Nat) (t : Tarball) (s : Temp) :
    (∀ e, t.readAll digest = .error e → t.intoTemp digest limit s = .error e) ∧
    (∀ bs, t.readAll digest = .ok bs → ∃ s', t.intoTemp digest limit s = .ok s' ∧ s'.bytes = s.bytes ++ bs) := by
  refine ⟨(bufferFrom_eq digest limit t.evs t.checker s).1, fun bs h => ?_⟩
  refine (bufferFrom_eq digest limit t.evs t.checker s).2 bs h (fun he => ?_)
  obtain ⟨c, evs⟩ := t
  simp only at he
  subst he
  cases c with
  | none => rw [readAll_unchecked] at h; simp only [whole, Except.ok.injEq] at h; exact h.symm
  | some ic =>
    obtain ⟨i, seen⟩ := ic
    rw [readAll_checked] at h
    simp only [whole] at h
    split at h
    · cases h; rfl
    · cases h

theorem push_inMemory (limit : Nat) (s : Temp) (b : Bytes) (h : s.inMemory ≤ limit) :
    (s.push limit b).inMemory ≤ limit := by
  cases s with
  | memory v =>
    simp only [Temp.push]
    split
    · exact h
    · simp only [Temp.inMemory, List.length_append]; omega
  | file v f => exact h

/-- The kind of the temporary: the file is used exactly when the limit is exceeded. -/
def Temp.Kind (limit : Nat) : Temp → Prop
  | .memory v => v.length ≤ limit
  | .file _ f => limit < f.length

theorem push_kind (limit : Nat) (s : Temp) (b : Bytes) (h : s.Kind limit) : (s.push limit b).Kind limit := by
  cases s with
  | memory v =>
    simp only [Temp.push]
    split <;> simp only [Temp.Kind, List.length_append] <;> omega
  | file v f => simp only [Temp.push, Temp.Kind, List.length_append] at *; omega

/-- the final state of the buffer keeps any invariant of `push` -/
theorem bufferFrom_inv (digest : Nat → Bytes → Str) (limit : Nat) (P : Temp → Prop)
    (hP : ∀ s b, P s → P (s.push limit b)) (evs : List Ev) (c : Option (Integrity × Bytes)) (s s' : Temp) (hs : P s)
    (h : bufferFrom digest limit evs c s = .ok s') : P s' := by
  induction evs generalizing c s with
  | nil =>
    simp only [bufferFrom] at h
    split at h
    · cases h
    · cases h; exact hs
  | cons ev r ih =>
    simp only [bufferFrom] at h
    split at h
    · cases h
    · cases h; exact hs
    · exact ih _ _ (hP _ _ hs) h

end Tar
end Oro
