import Verif.Proofs.Further
/-
File systems stay as they are: nothing becomes a file and a folder, whatever is extracted.
-/

set_option linter.unusedSectionVars false

namespace Oro
namespace Tar

/-- nothing is both a file and a folder -/
def NoBoth (fs : FS) : Prop := ∀ p, fs.files p ≠ none → fs.dirs p = false

theorem NoBoth.of {a b : FS} (hd : b.dirs = a.dirs) (hf : ∀ p, b.files p ≠ none → a.files p ≠ none) (h : NoBoth a) : NoBoth b :=
  fun p hp => by rw [hd]; exact h p (hf p hp)

theorem NoBoth.at {a b : FS} {p : Loc} (hd : b.dirs = a.dirs) (hp : a.dirs p = false) (hf : ∀ q, q ≠ p → b.files q = a.files q) (h : NoBoth a) :
    NoBoth b := fun q hq => by
  rw [hd]
  by_cases he : q = p
  · rw [he]; exact hp
  · rw [hf q he] at hq; exact h q hq

theorem not_dir {fs : FS} {p : Loc} {b : Bool} (h : (b && !fs.taken p) = true) : fs.dirs p = false := by
  unfold FS.taken at h
  cases hd : fs.dirs p with
  | false => rfl
  | true => rw [hd] at h; simp at h

theorem hardLink_at {env : Env} {fs : FS} {h p fs'} (hx : hardLink env fs h p = some fs') :
    fs'.dirs = fs.dirs ∧ fs.dirs p = false ∧ ∀ q, q ≠ p → fs'.files q = fs.files q := by
  unfold hardLink at hx
  split at hx
  · cases hx
  · split at hx
    · rename_i ht
      cases hx
      exact ⟨rfl, not_dir ht, fun q hq => upd_ne _ _ hq⟩
    · cases hx

theorem reflink_at {env : Env} {fs : FS} {h p fs'} (hx : reflink env fs h p = some fs') :
    fs'.dirs = fs.dirs ∧ fs.dirs p = false ∧ ∀ q, q ≠ p → fs'.files q = fs.files q := by
  unfold reflink at hx
  split at hx
  · cases hx
  · split at hx
    · rename_i ht
      cases hx
      exact ⟨rfl, not_dir ht, fun q hq => upd_ne _ _ hq⟩
    · cases hx

theorem copyTo_at {env : Env} {fs : FS} {h p fs'} (hx : copyTo env fs h p = some fs') :
    fs'.dirs = fs.dirs ∧ fs.dirs p = false ∧ ∀ q, q ≠ p → fs'.files q = fs.files q := by
  unfold copyTo at hx
  split at hx
  · cases hx
  · split at hx
    · cases hx
    · rename_i ht
      have ht : fs.dirs p = false := by simpa using ht
      split at hx
      · cases hx; exact ⟨rfl, ht, fun q hq => rfl⟩
      · cases hx; exact ⟨rfl, ht, fun q hq => upd_ne _ _ hq⟩

theorem extractFile_at {env : Env} {m : Mode} {fs : FS} {h p fs'} (hx : extractFile env m fs h p = some fs') :
    fs'.dirs = fs.dirs ∧ fs.dirs p = false ∧ ∀ q, q ≠ p → fs'.files q = fs.files q := by
  unfold extractFile at hx
  rw [Option.map_eq_some_iff] at hx
  obtain ⟨a, ha, rfl⟩ := hx
  have key : a.dirs = fs.dirs ∧ fs.dirs p = false ∧ ∀ q, q ≠ p → a.files q = fs.files q := by
    unfold linkFile at ha
    cases m <;> simp only [Option.or_eq_some_iff] at ha
    all_goals
      first
        | exact copyTo_at ha
        | (rcases ha with ha | ⟨_, ha⟩
           · exact reflink_at ha
           · exact copyTo_at ha)
        | (rcases ha with (ha | ⟨_, ha⟩) | ⟨_, ha⟩
           · exact hardLink_at ha
           · exact reflink_at ha
           · exact copyTo_at ha)
  split
  · exact key
  · unfold FS.chmod
    split <;> exact key

theorem mkdirp_both {c : List Loc} {fs : FS} {p : Loc} {c' fs'} (hx : mkdirp c fs p = some (c', fs')) (h : NoBoth fs) : NoBoth fs' := by
  unfold mkdirp at hx
  split at hx
  · cases hx; exact h
  · split at hx
    · simp only [Option.map_eq_some_iff, Prod.mk.injEq] at hx
      obtain ⟨a, ha, _, rfl⟩ := hx
      unfold createDir at ha
      split at ha
      · cases ha
      · rename_i ht
        cases ha
        intro q hq
        simp only [upd]
        split
        · rename_i he
          subst he
          unfold FS.taken at ht
          exfalso
          obtain ⟨k, hk⟩ := Option.ne_none_iff_exists'.1 hq
          rw [show fs.files q = some k from hk] at ht
          simp at ht
        · exact h q hq
    · simp only [Option.map_eq_some_iff, Prod.mk.injEq] at hx
      obtain ⟨a, ha, _, rfl⟩ := hx
      unfold createDirAll at ha
      split at ha
      · cases ha
      · rename_i ht
        cases ha
        intro q hq
        simp only [Bool.or_eq_false_iff]
        refine ⟨h q hq, ?_⟩
        by_contra hc
        have hc : q ∈ p.inits := by simpa using hc
        apply ht
        rw [List.any_eq_true]
        exact ⟨q, hc, Option.isSome_iff_ne_none.2 hq⟩

/-- one access -/
theorem both_step {env : Env} {j : Job} {pc : PC} {fs : FS} (h : NoBoth fs) : NoBoth (j.step env pc fs).2 := by
  have put : ∀ {b : FS} {h1 m p}, extractFile env m fs h1 p = some b → NoBoth b := fun hx =>
    h.at (extractFile_at hx).1 (extractFile_at hx).2.1 (extractFile_at hx).2.2
  cases pc with
  | linkDir m todo created =>
    simp only [Job.step]
    cases todo with
    | nil => exact h
    | cons kh r =>
      simp only
      cases hm : mkdirp created fs (RPath.goTo j.dir kh.1).dropLast with
      | none => exact h
      | some x => exact mkdirp_both hm h
  | link m k hh r created =>
    simp only [Job.step]
    cases hx : extractFile env m fs hh (RPath.goTo j.dir k) with
    | none => exact h
    | some fs' => exact put hx
  | evict =>
    simp only [Job.step]
    cases j.expected with
    | none => exact h
    | some i =>
      simp only
      cases hx : Tar.evict i fs with
      | none => exact h
      | some fs' => exact h.of (evict_dirs hx).2 (fun p hp => by rw [← (evict_dirs hx).1]; exact hp)
  | folder cache b =>
    simp only [Job.step]
    cases hm : mkdirp [] fs j.dir with
    | none => exact h
    | some x => exact mkdirp_both hm h
  | entry cache b todo s =>
    simp only [Job.step]
    cases todo with
    | nil => exact h
    | cons e r =>
      simp only
      split
      · cases hm : mkdirp s.created fs (RPath.goTo j.dir (subpath e)).dropLast with
        | none => exact h
        | some x => exact mkdirp_both hm h
      · exact h
  | plain b e r s =>
    simp only [Job.step]
    split
    · exact h
    · rename_i ht
      exact NoBoth.at (a := fs) (p := RPath.goTo j.dir (subpath e)) rfl (not_dir (b := true) (by simpa using ht)) (fun q hq => upd_ne _ _ hq) h
  | commit b e r s => exact h.of rfl (fun p hp => hp)
  | write b e r s =>
    simp only [Job.step]
    cases hx : extractFile env s.mode fs (env.xxh e.content, e.bits) (RPath.goTo j.dir (subpath e)) with
    | none => exact h
    | some fs' => exact put hx
  | redo b e r s m l =>
    simp only [Job.step]
    cases l with
    | nil => exact h
    | cons kh l =>
      simp only
      cases hx : fs.remove (RPath.goTo j.dir kh.1) with
      | none => exact h
      | some fs' =>
        have := remove_eq hx
        subst this
        refine NoBoth.of (a := fs) rfl (fun p hp => ?_) h
        simp only [upd] at hp
        split at hp
        · exact absurd rfl hp
        · exact hp
  | redone b e r s m k hh l =>
    simp only [Job.step]
    cases hx : extractFile env .auto fs hh (RPath.goTo j.dir k) with
    | none => exact h
    | some fs' => exact put hx
  | bins cache b l s =>
    simp only [Job.step]
    cases l with
    | nil => exact h
    | cons x l =>
      simp only
      cases hx : setBinMode fs (RPath.goTo j.dir (RPath.components x)) with
      | none => exact h
      | some fs' => exact h.of (setBinMode_dirs hx).2 (fun p hp => by rw [← (setBinMode_dirs hx).1]; exact hp)
  | record cache b s =>
    simp only [Job.step]
    refine h.of ?_ (fun p hp => ?_)
    · unfold recordIndex; split <;> rfl
    · unfold recordIndex at hp; split at hp <;> exact hp
  | start =>
    simp only [Job.step]
    repeat' split
    all_goals exact h
  | fetch cache =>
    simp only [Job.step]
    repeat' split
    all_goals exact h
  | manifest b e r s =>
    simp only [Job.step]
    repeat' split
    all_goals exact h
  | done i => exact h
  | failed => exact h

theorem both_run {env : Env} {jobs : Nat → Option Job} (sched : List Nat) (w : Runs) (h : NoBoth w.fs) : NoBoth (w.run env jobs sched).fs := by
  induction sched generalizing w with
  | nil => exact h
  | cons n r ih =>
    refine ih _ ?_
    unfold Runs.step
    cases jobs n with
    | none => exact h
    | some j => exact both_step h

/-- whatever is extracted, wherever to, and whatever was there: a file system stays one -/
theorem proper_run {env : Env} (ho : ∀ f, (env.ord f).Perm f) {jobs : Nat → Option Job} {fs : FS} (h : Proper fs) (sched : List Nat) :
    Proper ((Runs.init fs).run env jobs sched).fs := by
  have hH := housed_run ho sched _ (housed_init (jobs := jobs) fs)
  exact ⟨hH.closed h.closed, fun p hp => (hH.files p hp).elim (fun h0 => hH.up _ (h.housed p h0)) id, both_run sched _ h.apart⟩

end Tar
end Oro
