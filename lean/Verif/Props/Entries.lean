import Verif.Spec.Entries
/-
C100: the entries of a package.
-/

set_option linter.unusedSectionVars false

namespace Oro
namespace Tar
variable {σ E : Type} {u : Unpacker σ E} {digest : Nat → Bytes → Str} {evs : List Ev} {i : Integrity}

/-- what is true at any time of a checked stream -/
structure EInv (digest : Nat → Bytes → Str) (i : Integrity) (evs : List Ev) (x : ERun σ E) : Prop where
  solid : Solid x.tar.evs
  sent : x.got ++ sent x.tar.evs = sent evs
  checker : x.over = none → x.told = false → x.tar.checker = some (i, x.got)
  told : x.told = true → x.tar.evs = [] ∧ i.check digest x.got = true ∧ x.tar.checker = none

theorem solid_tail {ev : Ev} {r : List Ev} (h : Solid (ev :: r)) : Solid r := fun b hb => h b (List.mem_cons_of_mem _ hb)

theorem einv_step {x : ERun σ E} (h : EInv digest i evs x) : EInv digest i evs (u.step digest x) := by
  unfold Unpacker.step
  split
  · exact h
  · rename_i hover
    split
    · rename_i hw
      cases htold : x.told with
      | true =>
        obtain ⟨h1, h2, h3⟩ := h.told htold
        have : x.tar.pollRead digest = (.ok [], ⟨none, []⟩) := by
          unfold Tarball.pollRead
          rw [h1]
          simp [readEv, Tarball.feed, h3]
        rw [this]
        refine ⟨fun b hb => (by cases hb), ?_, ?_, ?_⟩
        · have := h.sent
          rw [h1] at this
          simpa [Tar.sent] using this
        · intro _ ht; simp at ht
        · intro _; exact ⟨rfl, by simpa using h2, rfl⟩
      | false =>
        have hc := h.checker hover htold
        unfold Tarball.pollRead
        cases hev : x.tar.evs with
        | nil =>
          simp only [readEv, Tarball.feed, hc, ne_eq, not_true_eq_false, if_false]
          have hs := h.sent
          rw [hev] at hs
          by_cases hk : i.check digest x.got = true
          · rw [if_pos hk]
            refine ⟨fun b hb => (by cases hb), ?_, ?_, ?_⟩
            · simpa [Tar.sent] using hs
            · intro _ ht; simp at ht
            · intro _; exact ⟨rfl, by simpa using hk, rfl⟩
          · rw [if_neg hk]
            refine ⟨fun b hb => (by cases hb), hs, ?_, ?_⟩
            · intro ho; cases ho
            · intro ht; cases ht
        | cons ev r =>
          have hs := h.sent
          rw [hev] at hs
          have hsol := h.solid
          rw [hev] at hsol
          cases ev with
          | fail =>
            simp only [readEv]
            refine ⟨solid_tail hsol, hs, ?_, ?_⟩
            · intro ho; cases ho
            · intro ht; cases ht
          | data b =>
            have hb : b ≠ [] := hsol b (by simp)
            simp only [readEv, Tarball.feed, hc]
            rw [if_pos hb]
            refine ⟨solid_tail hsol, ?_, ?_, ?_⟩
            · simpa [Tar.sent] using hs
            · intro _ _; rfl
            · intro ht
              cases b with
              | nil => exact absurd rfl hb
              | cons _ _ => cases ht
    · exact ⟨h.solid, h.sent, h.checker, h.told⟩
    · exact ⟨h.solid, h.sent, fun ho => (by cases ho), h.told⟩
    · exact ⟨h.solid, h.sent, fun ho => (by cases ho), h.told⟩

theorem einv (hs : Solid evs) (n : Nat) : EInv digest i evs (u.run digest n (u.open (.new evs i))) := by
  induction n with
  | zero => exact ⟨hs, rfl, fun _ _ => rfl, fun h => (by cases h)⟩
  | succ n ih => exact einv_step ih

/-- the checked stream and the unchecked one, side by side -/
structure Alike (x y : ERun σ E) : Prop where
  evs : x.tar.evs = y.tar.evs
  checker : y.tar.checker = none
  st : x.st = y.st
  got : x.got = y.got
  told : x.told = y.told
  out : x.out = y.out
  over : x.over = y.over

theorem alike_step {x y : ERun σ E} (h : Alike x y) : Alike (u.step digest x) (u.step digest y) ∨ ((u.step digest x).over = some (.failed .integrity) ∧
    (u.step digest x).out = (u.step digest y).out) := by
  obtain ⟨h1, h2, h3, h4, h5, h6, h7⟩ := h
  unfold Unpacker.step
  rw [h7]
  split
  · exact .inl ⟨h1, h2, h3, h4, h5, h6, h7⟩
  · rw [h3]
    split
    · unfold Tarball.pollRead
      rw [h1]
      cases hev : y.tar.evs with
      | nil =>
        simp only [readEv, Tarball.feed, h2]
        cases hc : x.tar.checker with
        | none => exact .inl ⟨rfl, rfl, by simp, by simp [h4], by simp [h5], h6, by simpa using h7⟩
        | some c =>
          obtain ⟨i, s⟩ := c
          simp only [ne_eq, not_true_eq_false, if_false]
          split
          · rename_i hh
            split at hh
            · cases hh
            · cases hh; exact .inr ⟨rfl, h6⟩
          · rename_i hh
            split at hh
            · cases hh; exact .inl ⟨rfl, rfl, by simp, by simp [h4], by simp [h5], h6, by simpa using h7⟩
            · cases hh
      | cons ev r =>
        cases ev with
        | fail => simp only [readEv]; exact .inl ⟨rfl, h2, rfl, h4, h5, h6, rfl⟩
        | data b =>
          simp only [readEv, Tarball.feed, h2]
          cases hc : x.tar.checker with
          | none => exact .inl ⟨rfl, rfl, by simp, by simp [h4], by simp [h5], h6, by simpa using h7⟩
          | some c =>
            obtain ⟨i, s⟩ := c
            dsimp only
            split
            · rename_i hh
              split at hh
              · cases hh
              · split at hh
                · cases hh
                · cases hh; exact .inr ⟨rfl, h6⟩
            · rename_i hh
              split at hh
              · cases hh; exact .inl ⟨rfl, rfl, by simp, by simp [h4], by simp [h5], h6, by simpa using h7⟩
              · split at hh
                · rename_i hbe _
                  simp only [ne_eq, not_not] at hbe
                  subst hbe
                  cases hh; exact .inl ⟨rfl, rfl, by simp, by simp [h4], by simp [h5], h6, by simpa using h7⟩
                · cases hh
    · rename_i e s he
      exact .inl ⟨h1, h2, rfl, h4, h5, by simp [h6], by simpa using h7⟩
    · exact .inl ⟨h1, h2, by simpa using h3, h4, h5, h6, rfl⟩
    · exact .inl ⟨h1, h2, by simpa using h3, h4, h5, h6, rfl⟩

theorem step_over {x : ERun σ E} {o : EEnd} (h : x.over = some o) : u.step digest x = x := by unfold Unpacker.step; rw [h]

theorem alike (n : Nat) : Alike (u.run digest n (u.open (.new evs i))) (u.run digest n (u.open (.newUnchecked evs))) ∨
    (u.run digest n (u.open (.new evs i))).over = some (.failed .integrity) := by
  induction n with
  | zero => exact .inl ⟨rfl, rfl, rfl, rfl, rfl, rfl, rfl⟩
  | succ n ih =>
    rcases ih with ih | ih
    · rcases alike_step (u := u) (digest := digest) ih with h | h
      · exact .inl h
      · exact .inr h.1
    · right
      show (u.step digest _).over = _
      rw [step_over ih]; exact ih

/-- C100: whenever the library has been told that it has all bytes and there was no error, the bytes that it got are everything that was
sent, and they have the expected integrity. -/
theorem C100_checked (u : Unpacker σ E) (digest : Nat → Bytes → Str) (evs : List Ev) (hs : Solid evs) (i : Integrity) (n : Nat)
    (h : (u.run digest n (u.open (packageTarball (some i) evs))).told = true) :
    (u.run digest n (u.open (packageTarball (some i) evs))).got = sent evs ∧ i.check digest (sent evs) = true := by
  have hi := einv (u := u) (digest := digest) (i := i) hs n
  obtain ⟨h1, h2, _⟩ := hi.told h
  have h3 := hi.sent
  rw [h1] at h3
  have h4 : (u.run digest n (u.open (.new evs i))).got = sent evs := by simpa [sent] using h3
  exact ⟨h4, by rw [← h4]; exact h2⟩

/-- C100 for unpackers that read to the end: if the stream of entries of a package comes to its end, then the caller got exactly the contents
of an archive with the expected integrity. -/
theorem C100_thorough_partial (u : Unpacker σ E) (contents : Bytes → List E) (ht : Thorough u) (hf : Faithful u contents) (digest : Nat → Bytes → Str)
    (evs : List Ev) (hs : Solid evs) (i : Integrity) (n : Nat) (h : (u.run digest n (u.open (packageTarball (some i) evs))).over = some .done) :
    i.check digest (sent evs) = true ∧ (u.run digest n (u.open (packageTarball (some i) evs))).out = contents (sent evs) := by
  have htold := ht digest _ n h
  refine ⟨(C100_checked u digest evs hs i n htold).2, ?_⟩
  rcases alike (u := u) (digest := digest) (evs := evs) (i := i) n with ha | ha
  · have ho : (u.run digest n (u.open (.newUnchecked evs))).over = some .done := by rw [← ha.over]; exact h
    have := hf digest evs n hs ho (by rw [← ha.told]; exact htold)
    rw [← this]; exact ha.out
  · have : (u.run digest n (u.open (.new evs i))).over = some .done := h
    rw [ha] at this; cases this

/-- C100: the check changes nothing but the end: until there is an error, the caller gets what an unchecked stream would give; a package
without an integrity is not checked at all. -/
theorem C100_same (u : Unpacker σ E) (digest : Nat → Bytes → Str) (evs : List Ev) (i : Integrity) (n : Nat) :
    (u.run digest n (u.open (packageTarball (some i) evs))).over = some (.failed .integrity) ∨
    ((u.run digest n (u.open (packageTarball (some i) evs))).out = (u.run digest n (u.open (packageTarball none evs))).out ∧
      (u.run digest n (u.open (packageTarball (some i) evs))).over = (u.run digest n (u.open (packageTarball none evs))).over) := by
  rcases alike (u := u) (digest := digest) (evs := evs) (i := i) n with ha | ha
  · exact .inr ⟨ha.out, ha.over⟩
  · exact .inl ha

theorem unchecked_step {x : ERun σ E} (h : x.tar.checker = none ∧ x.over ≠ some (.failed .integrity)) :
    (u.step digest x).tar.checker = none ∧ (u.step digest x).over ≠ some (.failed .integrity) := by
  obtain ⟨h1, h2⟩ := h
  unfold Unpacker.step
  split
  · exact ⟨h1, h2⟩
  · rename_i ho
    split
    · unfold Tarball.pollRead
      cases hev : x.tar.evs with
      | nil => simp [readEv, Tarball.feed, h1, ho]
      | cons ev r => cases ev <;> simp [readEv, Tarball.feed, h1, ho]
    · exact ⟨h1, h2⟩
    · exact ⟨h1, by simp⟩
    · exact ⟨h1, by simp⟩

/-- C100: a stream that is not to be checked never fails for its integrity. -/
theorem C100_unchecked (u : Unpacker σ E) (digest : Nat → Bytes → Str) (evs : List Ev) (n : Nat) :
    (u.run digest n (u.open (packageTarball none evs))).over ≠ some (.failed .integrity) := by
  have : ∀ n, (u.run digest n (u.open (packageTarball none evs))).tar.checker = none ∧ (u.run digest n (u.open (packageTarball none evs))).over ≠ some (.failed .integrity) := by
    intro n
    induction n with
    | zero => exact ⟨rfl, by simp [Unpacker.run, Unpacker.open]⟩
    | succ n ih => exact unchecked_step ih
  exact (this n).2

/-- C100: what the caller got is never taken back. -/
theorem C100_grows (u : Unpacker σ E) (digest : Nat → Bytes → Str) (x : ERun σ E) (n : Nat) :
    (u.run digest n x).out <+: (u.run digest (n + 1) x).out := by
  show _ <+: (u.step digest _).out
  generalize u.run digest n x = y
  unfold Unpacker.step
  split
  · exact List.prefix_refl _
  · split
    · split <;> exact List.prefix_refl _
    · exact List.prefix_append _ _
    · exact List.prefix_refl _
    · exact List.prefix_refl _

end Tar
end Oro
