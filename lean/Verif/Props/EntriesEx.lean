import Verif.Props.Entries
/-
C100: examples, and where the property does not hold.
-/

set_option linter.unusedSectionVars false

namespace Oro
namespace Tar
namespace ExE

/-- archives in which every byte is an entry, and 0 marks the end -/
structure U where
  buf : Bytes
  ended : Bool
  told : Bool
  deriving DecidableEq

def notEnd (b : UInt8) : Bool := b != 0

/-- an unpacker for them; `on`: whether it reads on to the end of the tarball after the mark (as `extract_to_dir` does), or is content
with the mark, as tar libraries are -/
def unpacker (on : Bool) : Unpacker U UInt8 where
  start := ⟨[], false, false⟩
  next s := match s.buf with
    | e :: r => .item e { s with buf := r }
    | [] => if s.ended && (!on || s.told) then .stop else if s.told then .bad else .more
  give s b := if b = [] then { s with told := true } else if s.ended then s else ⟨s.buf ++ b.takeWhile notEnd, !b.all notEnd, s.told⟩

def contents (b : Bytes) : List UInt8 := b.takeWhile notEnd

variable {on : Bool} {digest : Nat → Bytes → Str} {evs : List Ev}

theorem thorough : Thorough (unpacker true) := by
  intro digest t n
  have : ∀ n, ((unpacker true).run digest n ((unpacker true).open t)).st.told = ((unpacker true).run digest n ((unpacker true).open t)).told ∧
      (((unpacker true).run digest n ((unpacker true).open t)).over = some .done → ((unpacker true).run digest n ((unpacker true).open t)).told = true) := by
    intro n
    induction n with
    | zero => exact ⟨rfl, fun h => (by cases h)⟩
    | succ n ih =>
      show ((unpacker true).step digest _).st.told = ((unpacker true).step digest _).told ∧ (((unpacker true).step digest _).over = some .done → ((unpacker true).step digest _).told = true)
      revert ih
      generalize (unpacker true).run digest n ((unpacker true).open t) = x
      rintro ⟨h1, h2⟩
      unfold Unpacker.step
      split
      · exact ⟨h1, h2⟩
      · rename_i ho
        split
        · split
          · exact ⟨h1, fun h => (by cases h)⟩
          · rename_i b _ _
            refine ⟨?_, fun h => (by rw [ho] at h; cases h)⟩
            simp only [unpacker]
            cases b with
            | nil => simp
            | cons c b =>
              rw [if_neg (by simp)]
              split <;> simp [h1]
        · rename_i e s he
          refine ⟨?_, fun h => (by rw [ho] at h; cases h)⟩
          simp only [unpacker] at he
          split at he
          · cases he; exact h1
          · split at he
            · cases he
            · split at he <;> cases he
        · rename_i he
          refine ⟨h1, fun _ => ?_⟩
          simp only [unpacker] at he
          split at he
          · cases he
          · split at he
            · rename_i hc
              simp at hc
              rw [← h1]; exact hc.2
            · split at he <;> cases he
        · exact ⟨h1, fun h => (by cases h)⟩
  exact (this n).2

structure FInv (evs : List Ev) (x : ERun U UInt8) : Prop where
  solid : Solid x.tar.evs
  checker : x.tar.checker = none
  sent : x.got ++ sent x.tar.evs = sent evs
  told : x.told = true → x.tar.evs = []
  out : x.out ++ x.st.buf = x.got.takeWhile notEnd
  ended : x.st.ended = !x.got.all notEnd
  over : x.over = some .done → x.st.buf = []

theorem takeWhile_more {a b : Bytes} : (a ++ b).takeWhile notEnd = if a.all notEnd then a ++ b.takeWhile notEnd else a.takeWhile notEnd := by
  induction a with
  | nil => simp
  | cons c a ih =>
    simp only [List.cons_append, List.takeWhile_cons, List.all_cons]
    cases hc : notEnd c with
    | false => simp
    | true =>
      rw [ih]
      simp only [Bool.true_and, if_true]
      split <;> rfl

theorem takeWhile_all {a : Bytes} (h : a.all notEnd = true) : a.takeWhile notEnd = a := by
  have := takeWhile_more (a := a) (b := [])
  rw [if_pos h] at this
  simpa using this

theorem finv_step {x : ERun U UInt8} (h : FInv evs x) : FInv evs ((unpacker on).step digest x) := by
  unfold Unpacker.step
  split
  · exact h
  · rename_i ho
    split
    · unfold Tarball.pollRead
      have hs := h.sent
      have hsol := h.solid
      cases hev : x.tar.evs with
      | nil =>
        simp only [readEv, Tarball.feed, h.checker]
        rw [hev] at hs
        refine ⟨fun b hb => (by cases hb), rfl, by simpa using hs, fun _ => rfl, ?_, ?_, fun hh => ?_⟩
        · simpa [unpacker] using h.out
        · simpa [unpacker] using h.ended
        · rw [ho] at hh; cases hh
      | cons ev r =>
        rw [hev] at hs hsol
        cases ev with
        | fail =>
          simp only [readEv]
          refine ⟨solid_tail hsol, h.checker, hs, fun ht => ?_, h.out, h.ended, fun hh => (by cases hh)⟩
          have := h.told ht
          rw [hev] at this; cases this
        | data b =>
          have hb : b ≠ [] := hsol b (by simp)
          have hbe : b.isEmpty = false := by cases b <;> simp_all
          simp only [readEv, Tarball.feed, h.checker]
          refine ⟨solid_tail hsol, rfl, by simpa [Tar.sent] using hs, fun ht => ?_, ?_, ?_, fun hh => (by rw [ho] at hh; cases hh)⟩
          · simp only [hbe, Bool.or_false] at ht
            have := h.told ht
            rw [hev] at this; cases this
          · simp only [unpacker]
            rw [if_neg hb, h.ended, takeWhile_more]
            cases ha : x.got.all notEnd with
            | true =>
              simp only [Bool.not_true, Bool.false_eq_true, if_false, if_true]
              rw [← List.append_assoc, h.out, takeWhile_all ha]
            | false => simpa using h.out
          · simp only [unpacker]
            rw [if_neg hb, h.ended, List.all_append]
            cases ha : x.got.all notEnd with
            | true => simp
            | false => simp [h.ended, ha]
    · rename_i e s he
      simp only [unpacker] at he
      split at he
      · rename_i e' r hbuf
        cases he
        refine ⟨h.solid, h.checker, h.sent, h.told, ?_, h.ended, fun hh => (by rw [ho] at hh; cases hh)⟩
        rw [← h.out, hbuf]; simp
      · split at he
        · cases he
        · split at he <;> cases he
    · rename_i he
      refine ⟨h.solid, h.checker, h.sent, h.told, h.out, h.ended, fun _ => ?_⟩
      simp only [unpacker] at he
      split at he
      · cases he
      · assumption
    · exact ⟨h.solid, h.checker, h.sent, h.told, h.out, h.ended, fun hh => (by cases hh)⟩

theorem finv (hs : Solid evs) (n : Nat) : FInv evs ((unpacker on).run digest n ((unpacker on).open (.newUnchecked evs))) := by
  induction n with
  | zero => exact ⟨hs, rfl, rfl, fun h => (by cases h), rfl, rfl, fun h => (by cases h)⟩
  | succ n ih => exact finv_step ih

theorem faithful (on : Bool) : Faithful (unpacker on) contents := by
  intro digest evs n hs ho ht
  have h := finv (on := on) (digest := digest) hs n
  have h1 := h.sent
  rw [h.told ht] at h1
  have h2 := h.out
  rw [h.over ho] at h2
  simp only [sent, List.append_nil] at h1 h2
  rw [h2, h1]
  rfl

def digest1 (_ : Nat) (b : Bytes) : Str := b.map fun c => Char.ofNat c.toNat
def sri (b : Bytes) : Integrity := ⟨[(1, digest1 1 b)]⟩

/-- C100_thorough_partial is about this: two entries, in two pieces; something follows the mark -/
example : Solid [.data [5, 6], .data [0, 7]] ∧ ((unpacker true).run digest1 6 ((unpacker true).open (packageTarball (some (sri [5, 6, 0, 7])) [.data [5, 6], .data [0, 7]]))).over = some .done ∧
    ((unpacker true).run digest1 6 ((unpacker true).open (packageTarball (some (sri [5, 6, 0, 7])) [.data [5, 6], .data [0, 7]]))).out = [5, 6] := by
  refine ⟨?_, by decide +kernel, by decide +kernel⟩
  intro b hb
  simp at hb
  rcases hb with rfl | rfl <;> simp

/-- and the stream fails if the last byte is another one -/
example : ((unpacker true).run digest1 6 ((unpacker true).open (packageTarball (some (sri [5, 6, 0, 8])) [.data [5, 6], .data [0, 7]]))).over = some (.failed .integrity) := by
  decide +kernel

end ExE
open ExE

/-- C100 does not hold for an unpacker that stops at the archive's end mark, as tar libraries do: it gives the caller the entries of the
wrong archive and comes to its end without an error, since nobody reads the tarball to its end and so the integrity is never checked. -/
theorem C100_unread_fails : ∃ n, Faithful (unpacker false) contents ∧ (sri [5, 0]).check digest1 (sent [.data [6, 0]]) = false ∧
    ((unpacker false).run digest1 n ((unpacker false).open (packageTarball (some (sri [5, 0])) [.data [6, 0]]))).over = some .done ∧
    ((unpacker false).run digest1 n ((unpacker false).open (packageTarball (some (sri [5, 0])) [.data [6, 0]]))).out = [6] :=
  ⟨3, faithful false, by decide +kernel, by decide +kernel, by decide +kernel⟩

/-- Nor is an entry checked when the caller gets it: the entries of a wrong archive are handed out before the stream fails. -/
theorem C100_early_fails : ∃ n, Thorough (unpacker true) ∧ Faithful (unpacker true) contents ∧ (sri [5, 0]).check digest1 (sent [.data [6, 0]]) = false ∧
    ((unpacker true).run digest1 n ((unpacker true).open (packageTarball (some (sri [5, 0])) [.data [6, 0]]))).over = none ∧
    ((unpacker true).run digest1 n ((unpacker true).open (packageTarball (some (sri [5, 0])) [.data [6, 0]]))).out = [6] ∧
    ((unpacker true).run digest1 (n + 1) ((unpacker true).open (packageTarball (some (sri [5, 0])) [.data [6, 0]]))).over = some (.failed .integrity) :=
  ⟨2, thorough, faithful true, by decide +kernel, by decide +kernel, by decide +kernel, by decide +kernel⟩

/-- The error is given once: who reads on after it is told that the tarball has come to its end. -/
theorem C100_once_fails (digest : Nat → Bytes → Str) (t t' : Tarball) (ht : t.evs = []) (h : t.pollRead digest = (.error .integrity, t')) :
    t'.pollRead digest = (.ok [], t') := by
  unfold Tarball.pollRead at h
  rw [ht] at h
  simp only [readEv, Tarball.feed] at h
  split at h
  · cases h
  · simp only [ne_eq, not_true_eq_false, if_false] at h
    split at h
    · cases h
    · cases h; rfl

example : (Tarball.new [] (sri [5])).pollRead digest1 = (.error .integrity, ⟨none, []⟩) := by decide +kernel

end Tar
end Oro
