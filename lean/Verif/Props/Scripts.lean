import Verif.Proofs.Scripts
import Batteries.Data.List.Perm
/-
Properties C29–C31, C56: lifecycle scripts.
-/

set_option linter.unusedSectionVars false

namespace Oro
namespace Scripts

variable {N P S : Type}

/-! ## A concrete graph for the examples -/
namespace Ex

def nd : Node Nat Nat Nat := ⟨0, 0, [], none, [], []⟩
def e (a b : Nat) (t : DepType) : Edge Nat := ⟨a, b, 0, t⟩
/-- root → 1 → 2 → 3 and root → 3 (optional); 4 is optional -/
def g : Graph Nat Nat Nat :=
  ⟨[nd, nd, nd, nd, nd], [e 0 1 .prod, e 1 2 .prod, e 2 3 .prod, e 0 3 .opt, e 1 4 .opt]⟩
/-- 1 and 2 need each other -/
def cyc : Graph Nat Nat Nat := ⟨[nd, nd, nd], [e 0 1 .prod, e 1 2 .prod, e 2 1 .prod]⟩
def pending : List Nat := [1, 3, 4]
def ok : Nat → Bool := fun _ => true

/-- a run to the end with two scripts at a time -/
theorem run (f : Nat → Bool) (h3 : f 3 = true) (h4 : f 4 = true) (h1 : f 1 = true) :
    ∃ s, Run g pending 2 f 7 s ∧ s.result = some true ∧
      s.log = [.start 4, .start 3, .finish 3 true, .finish 4 true, .start 1, .finish 1 true] := by
  refine ⟨_, .tail (.tail (.tail (.tail (.tail (.tail (.tail (.refl _) (.start _ 4 rfl ?_ ?_)) (.start _ 3 rfl ?_ ?_))
    (.finish _ 3 rfl ?_)) (.finish _ 4 ?_ ?_)) (.start _ 1 ?_ ?_ ?_)) (.finish _ 1 ?_ ?_)) (.done _ ?_ ?_ ?_ ?_), rfl, ?_⟩
  all_goals (try rw [h3]); (try rw [h4]); (try rw [h1])
  all_goals decide +kernel

/-- after one step package 3 is running -/
theorem run1 : ∃ s, Run g pending 2 ok 1 s ∧ s.running = [3] ∧ s.result = none :=
  ⟨_, .tail (.refl _) (.start _ 3 rfl (by decide +kernel) (by decide +kernel)), rfl, rfl⟩

end Ex

/-! ## C29 -/

/-- C29.  In every run of the script phase – any graph, any set of pending packages, any concurrency limit, any order of
completions – whenever a package is started, every other pending package it depends on, directly or through others, has
already finished successfully. -/
theorem C29_after_dependencies (g : Graph N P S) (pending : List Nat) (hn : pending.Nodup) (limit : Nat) (oks : Nat → Bool)
    (n : Nat) (s : St) (hr : Run g pending limit oks n s) (before after : List Ev) (i : Nat)
    (hl : s.log = before ++ .start i :: after) (j : Nat) (hj : j ∈ pending) (hne : j ≠ i) (hd : DependsOn g i j) :
    Ev.start j ∈ before ∧ Ev.finish j true ∈ before := by
  have I := inv_run hn hr
  have h1 : Ev.finish j true ∈ before := (I.logok before _ after hl).2 j (mem_requires.2 ⟨hj, hne, hd⟩)
  obtain ⟨a, b, hab⟩ := List.append_of_mem h1
  have h2 := I.logok a (.finish j true) (b ++ .start i :: after) (by rw [hl, hab]; simp)
  exact ⟨by rw [hab]; exact List.mem_append_left _ h2.2, h1⟩

/-- the statement applies: package 1 needs 2, which needs 3; 1 and 3 are pending and there is a run that starts 1 -/
example : ∃ s, Run Ex.g Ex.pending 2 Ex.ok 7 s ∧ DependsOn Ex.g 1 3 ∧ Ex.pending.Nodup ∧
    s.log = [.start 4, .start 3, .finish 3 true, .finish 4 true] ++ .start 1 :: [.finish 1 true] := by
  obtain ⟨s, h1, _, h3⟩ := Ex.run Ex.ok rfl rfl rfl
  refine ⟨s, h1, .trans (.direct (b := 2) ⟨_, .tail _ (.head _), rfl, rfl⟩) (.direct ⟨_, .tail _ (.tail _ (.head _)), rfl, rfl⟩),
    by decide +kernel, h3⟩

/-! ## C30 -/

/-- C30.  No package is started twice, only pending packages are started, and when the phase ends successfully every
pending package was started exactly once and has finished. -/
theorem C30_once (g : Graph N P S) (pending : List Nat) (hn : pending.Nodup) (limit : Nat) (oks : Nat → Bool)
    (n : Nat) (s : St) (hr : Run g pending limit oks n s) :
    (∀ i, s.log.count (.start i) ≤ 1) ∧ (∀ i, Ev.start i ∈ s.log → i ∈ pending) ∧
    (s.result = some true → ∀ i ∈ pending, s.log.count (.start i) = 1 ∧ Ev.finish i true ∈ s.log) := by
  have I := inv_run hn hr
  refine ⟨I.starts, ?_, ?_⟩
  · intro i hi
    obtain ⟨a, b, hab⟩ := List.append_of_mem hi
    exact (I.logok a _ b hab).1
  · intro hs i hi
    obtain ⟨h1, h2⟩ := (I.good hs).1 i hi
    have := I.starts i
    have : 1 ≤ s.log.count (.start i) := List.one_le_count_iff.2 h2
    exact ⟨by omega, h1⟩

example : ∃ s, Run Ex.g Ex.pending 2 Ex.ok 7 s ∧ s.result = some true ∧ Ex.pending.Nodup := by
  obtain ⟨s, h1, h2, _⟩ := Ex.run Ex.ok rfl rfl rfl
  exact ⟨s, h1, h2, by decide +kernel⟩

/-- C30.  Every run is finite: at most two steps per pending package and one to end the phase. -/
theorem C30_bounded (g : Graph N P S) (pending : List Nat) (hn : pending.Nodup) (limit : Nat) (oks : Nat → Bool)
    (n : Nat) (s : St) (hr : Run g pending limit oks n s) : n ≤ 2 * pending.length + 1 := by
  have := steps_measure hn hr
  split at this <;> omega

/-- C30, proved part: if no two different pending packages depend on each other, a run can only stop by ending the
phase – and ends it successfully if no package fails.  Missing: packages that depend on each other (`C30_fails`). -/
theorem C30_ends_partial (g : Graph N P S) (pending : List Nat) (hn : pending.Nodup) (limit : Nat) (oks : Nat → Bool)
    (hc : NoCycle g pending) (n : Nat) (s : St) (hr : Run g pending limit oks n s) (hs : Stuck g pending limit oks s) :
    s.result ≠ none ∧ ((∀ i ∈ pending, oks i = true) → s.result = some true) := by
  have I := inv_run hn hr
  have h1 : s.result ≠ none := by
    intro h
    obtain ⟨t, ht⟩ := progress I hc h
    exact hs t ht
  refine ⟨h1, ?_⟩
  intro hall
  cases h : s.result with
  | none => exact absurd h h1
  | some b =>
    cases b with
    | true => rfl
    | false =>
      obtain ⟨i, hi, hf⟩ := I.bad h
      obtain ⟨a, c, hac⟩ := List.append_of_mem hf
      have := (I.logok a _ c hac).1
      rw [hall i hi] at this
      cases this

/-- a graph without cycles, with a package that is reached along two ways -/
example : NoCycle Ex.g Ex.pending := by
  intro i hi j hj hne h1 h2
  rw [dependsOn_iff _ _ _ hne] at h1
  rw [dependsOn_iff _ _ _ hne.symm] at h2
  revert i j
  decide +kernel

/-- C30.  Packages that depend on each other block the phase: it never ends successfully, on any schedule. -/
theorem C30_cycle (g : Graph N P S) (pending : List Nat) (hn : pending.Nodup) (limit : Nat) (oks : Nat → Bool)
    (i j : Nat) (hi : i ∈ pending) (hj : j ∈ pending) (hne : i ≠ j) (h1 : DependsOn g i j) (h2 : DependsOn g j i)
    (n : Nat) (s : St) (hr : Run g pending limit oks n s) : Ev.start i ∉ s.log ∧ s.result ≠ some true := by
  have I := inv_run hn hr
  have key : ∀ m (pre post : List Ev), pre.length ≤ m → s.log = pre ++ post → Ev.start i ∉ pre ∧ Ev.start j ∉ pre := by
    intro m
    induction m with
    | zero =>
      intro pre post hl _
      have : pre = [] := List.eq_nil_of_length_eq_zero (by omega)
      subst this; simp
    | succ m ih =>
      intro pre post hl hp
      have aux : ∀ x y, x ∈ pending → y ∈ pending → x ≠ y → DependsOn g x y →
          (∀ a b : List Ev, a.length ≤ m → s.log = a ++ b → Ev.start y ∉ a) → Ev.start x ∉ pre := by
        intro x y hx hy hxy hd hih hmem
        obtain ⟨a, b, hab⟩ := List.append_of_mem hmem
        have hlog : s.log = a ++ .start x :: (b ++ post) := by rw [hp, hab]; simp
        have hf := (I.logok a _ _ hlog).2 y (mem_requires.2 ⟨hy, Ne.symm hxy, hd⟩)
        obtain ⟨c, d, hcd⟩ := List.append_of_mem hf
        have h3 := (I.logok c (.finish y true) (d ++ .start x :: (b ++ post)) (by rw [hlog, hcd]; simp)).2
        have hlen : c.length ≤ m := by
          have := congrArg List.length hab
          have := congrArg List.length hcd
          simp at *
          omega
        exact hih c (.finish y true :: (d ++ .start x :: (b ++ post))) hlen (by rw [hlog, hcd]; simp) h3
      exact ⟨aux i j hi hj hne h1 fun a b ha hb => (ih a b ha hb).2,
        aux j i hj hi (Ne.symm hne) h2 fun a b ha hb => (ih a b ha hb).1⟩
  have h := key s.log.length s.log [] (Nat.le_refl _) (by simp)
  exact ⟨h.1, fun hx => h.1 ((I.good hx).1 i hi).2⟩

/-- C30 is false of the code: two packages with install scripts that depend on each other make the phase wait for ever,
with nothing running, before any script was run. -/
theorem C30_fails : ∃ s, Run Ex.cyc [1, 2] 2 Ex.ok 0 s ∧ Stuck Ex.cyc [1, 2] 2 Ex.ok s ∧ s.result = none ∧ s.log = [] := by
  refine ⟨_, .refl _, ?_, rfl, rfl⟩
  intro t st
  cases st with
  | start i _ h _ => have : i ∈ ([] : List Nat) := h; simp at this
  | finish i _ h => have : i ∈ ([] : List Nat) := h; simp at this
  | done _ _ _ h => have : false = true := h; simp at this

/-! ## C31 -/

/-- the result of handling package `i`, with `out` describing what happens to each package's script -/
abbrev results (g : Graph N P S) (event : Str) (out : Nat → Outcome) : Nat → Bool :=
  fun i => runDepScript (g.isOptional i) event (out i)

theorem isOptional_iff (g : Graph N P S) (i : Nat) : g.isOptional i = true ↔ OnlyOptional g i := by
  simp only [Graph.isOptional, OnlyOptional, List.all_eq_true, List.mem_filter, beq_iff_eq, and_imp]

theorem result_iff (g : Graph N P S) (event : Str) (out : Nat → Outcome) (i : Nat) :
    results g event out i = false ↔ Unreadable (out i) ∨ (ScriptFails event (out i) ∧ ¬ OnlyOptional g i) := by
  unfold results runDepScript Unreadable ScriptFails
  rw [← isOptional_iff]
  cases hs : (out i).scripts with
  | none => simp
  | some ss =>
    simp only [reduceCtorEq, false_or, Option.some.injEq, exists_eq_left']
    by_cases he : event ∈ ss
    · simp only [List.contains_eq_mem, he, decide_true, if_true, true_and]
      cases (out i).spawn <;> cases (out i).output <;> cases (out i).exit <;> simp
    · simp [he]

/-- C31.  If the phase ends successfully, every pending package had a readable package.json, and if its script failed
then every package depending on it lists it as optional. -/
theorem C31_success (g : Graph N P S) (pending : List Nat) (hn : pending.Nodup) (limit : Nat) (event : Str)
    (out : Nat → Outcome) (n : Nat) (s : St) (hr : Run g pending limit (results g event out) n s)
    (hs : s.result = some true) (i : Nat) (hi : i ∈ pending) :
    ¬ Unreadable (out i) ∧ (ScriptFails event (out i) → OnlyOptional g i) := by
  have I := inv_run hn hr
  have hf := ((I.good hs).1 i hi).1
  obtain ⟨a, b, hab⟩ := List.append_of_mem hf
  have h1 := (I.logok a _ b hab).1
  have h2 : ¬ (results g event out i = false) := by rw [← h1]; simp
  rw [result_iff] at h2
  exact ⟨fun h => h2 (.inl h), fun h => by_contra fun hx => h2 (.inr ⟨h, hx⟩)⟩

/-- C31.  If the phase fails, that is because of a package whose script failed and that some package requires (not just
optionally), or a package whose installed package.json can not be read. -/
theorem C31_failure (g : Graph N P S) (pending : List Nat) (hn : pending.Nodup) (limit : Nat) (event : Str)
    (out : Nat → Outcome) (n : Nat) (s : St) (hr : Run g pending limit (results g event out) n s)
    (hs : s.result = some false) :
    ∃ i ∈ pending, Ev.start i ∈ s.log ∧ (Unreadable (out i) ∨ (ScriptFails event (out i) ∧ ¬ OnlyOptional g i)) := by
  have I := inv_run hn hr
  obtain ⟨i, hi, hf⟩ := I.bad hs
  obtain ⟨a, b, hab⟩ := List.append_of_mem hf
  have h1 := I.logok a _ b hab
  refine ⟨i, hi, ?_, (result_iff g event out i).1 h1.1.symm⟩
  rw [hab]; exact List.mem_append_left _ h1.2

/-- C31.  The failing script of a package that only others list as optional does not fail the phase: if that is the
only kind of failure, no run fails. -/
theorem C31_optional (g : Graph N P S) (pending : List Nat) (hn : pending.Nodup) (limit : Nat) (event : Str)
    (out : Nat → Outcome) (ho : ∀ i ∈ pending, ¬ Unreadable (out i) ∧ (ScriptFails event (out i) → OnlyOptional g i))
    (n : Nat) (s : St) (hr : Run g pending limit (results g event out) n s) : s.result ≠ some false := by
  intro hs
  obtain ⟨i, hi, _, h | ⟨h, h'⟩⟩ := C31_failure g pending hn limit event out n s hr hs
  · exact (ho i hi).1 h
  · exact h' ((ho i hi).2 h)

/-- the installed package has an install script; `b`: does it succeed -/
def Ex.out (b : Bool) : Outcome := ⟨some [['i']], true, true, b⟩

/-- the optional package 4 fails, the phase succeeds -/
example : ∃ s, Run Ex.g Ex.pending 2 (results Ex.g ['i'] fun i => Ex.out (i != 4)) 7 s ∧ s.result = some true ∧
    ScriptFails ['i'] (Ex.out (4 != 4)) := by
  obtain ⟨s, h1, h2, _⟩ := Ex.run (results Ex.g ['i'] fun i => Ex.out (i != 4)) (by decide) (by decide) (by decide)
  exact ⟨s, h1, h2, _, rfl, by simp, by simp [Ex.out]⟩

/-- package 3 fails; 2 requires it, so the phase fails although the root lists it as optional -/
example : ∃ s, Run Ex.g Ex.pending 2 (results Ex.g ['i'] fun i => Ex.out (i != 3)) 2 s ∧ s.result = some false :=
  ⟨_, .tail (.tail (.refl _) (.start _ 3 rfl (by decide +kernel) (by decide +kernel))) (.finish _ 3 rfl (by decide +kernel)),
    by decide +kernel⟩

/-- C31, a limit of the code: an optional package whose installed package.json is unreadable does fail the phase. -/
theorem C31_unreadable : ∃ s, Run Ex.g Ex.pending 2 (results Ex.g ['i'] fun _ => ⟨none, true, true, true⟩) 2 s ∧
    s.result = some false ∧ OnlyOptional Ex.g 4 ∧ s.log = [.start 4, .finish 4 false] := by
  refine ⟨_, .tail (.tail (.refl _) (.start _ 4 rfl (by decide +kernel) (by decide +kernel)))
    (.finish _ 4 rfl (by decide +kernel)), by decide +kernel, ?_, by decide +kernel⟩
  rw [← isOptional_iff]
  decide +kernel

/-! ## C56 -/

/-- The packages whose handling has begun but not ended, according to the history. -/
def inProgress (log : List Ev) (i : Nat) : Prop := Ev.start i ∈ log ∧ ∀ b, Ev.finish i b ∉ log

/-- C56.  With a concurrency limit of at least one, at no time are more than that many packages in progress. -/
theorem C56_limit (g : Graph N P S) (pending : List Nat) (hn : pending.Nodup) (limit : Nat) (hl : limit ≠ 0)
    (oks : Nat → Bool) (n : Nat) (s : St) (hr : Run g pending limit oks n s) (hs : s.result = none) (l : List Nat)
    (hln : l.Nodup) (hp : ∀ i ∈ l, inProgress s.log i) : l.length ≤ limit := by
  have I := inv_run hn hr
  have L := I.live hs
  have : l ⊆ s.running := by
    intro i hi
    obtain ⟨h1, h2⟩ := hp i hi
    rcases (L.started i).1 h1 with h | h
    · exact h
    · exact absurd h (h2 true)
  have h1 := (List.subperm_of_subset hln this).length_le
  have h2 := I.width hl
  omega

example : ∃ s, Run Ex.g Ex.pending 2 Ex.ok 1 s ∧ s.result = none ∧ inProgress s.log 3 := by
  refine ⟨_, .tail (.refl _) (.start _ 3 rfl (by decide +kernel) (by decide +kernel)), rfl, ?_⟩
  simp [inProgress, init]

end Scripts
end Oro
