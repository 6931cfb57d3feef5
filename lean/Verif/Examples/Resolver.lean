import Verif.Proofs.ResolverMore
/- Concrete registries and schedules used as witnesses. -/

set_option linter.unusedSectionVars false

namespace Oro.Ex
open Oro

/-- names are numbers, a package is (name, version), a specifier is (name, text) -/
abbrev G := Graph Nat (Nat × Nat) (Nat × Str)
abbrev St := RState Nat (Nat × Nat) (Nat × Str)
abbrev E := Env Nat (Nat × Nat) (Nat × Str)
abbrev Nd := Node Nat (Nat × Nat) (Nat × Str)

/-- "1" ↦ exactly version 1, "2" ↦ exactly 2, "^" ↦ anything -/
def sat (p : Nat × Nat) (s : Nat × Str) : Bool :=
  p.1 == s.1 && (s.2 == ['^'] || (s.2 == ['1'] && p.2 == 1) || (s.2 == ['2'] && p.2 == 2))

/-- registry given as a table: name, specifier text, version, dependencies -/
def mkEnv (table : List ((Nat × Str) × Nat × List (Nat × Str))) : E where
  parse n s := some (n, s)
  sat := sat
  fetch s := (table.lookup s).map fun r => ((s.1, r.1), { deps := r.2 })
  nameLe a b := decide (a.1 ≤ b.1)
  concurrency := 10

def mkRoot (deps : List (Nat × Str)) : Nd :=
  { name := 0, pkg := (0, 0), reqs := deps.map fun d => (d.1, (d, DepType.prod)) }

def ok : Option (Except ResolveErr St) → Bool
  | some (.ok _) => true
  | _ => false

def get : Option (Except ResolveErr St) → St
  | some (.ok s) => s
  | _ => rinit (mkRoot [])

theorem get_eq {x : Option (Except ResolveErr St)} (h : ok x = true) : x = some (.ok (get x)) := by
  unfold ok at h
  split at h
  · rfl
  · cases h

/-- run a schedule from a root -/
def final (env : E) (root : Nd) (evs : List (REvent (Nat × Str))) : St := get (rrun env none (rinit root) evs)

theorem final_reach {env : E} {root : Nd} {evs : List (REvent (Nat × Str))}
    (h : ok (rrun env none (rinit root) evs) = true) : RReach env none root (final env root evs) :=
  rrun_reach evs .init (get_eq h)

/-! ### C01: packages D = 1, E = 2, n = 3 -/

def env1 : E := mkEnv [((1, ['1']), 1, [(2, ['2']), (3, ['2'])]), ((2, ['1']), 1, []), ((2, ['2']), 2, [(3, ['1'])]),
  ((3, ['1']), 1, []), ((3, ['2']), 2, [])]
def root1 : Nd := mkRoot [(1, ['1']), (2, ['1']), (3, ['1'])]
def sched1 : List (REvent (Nat × Str)) :=
  [.pop, .pull, .pull, .pull, .complete (1, ['1']), .complete (2, ['1']), .complete (3, ['1']), .deliver,
   .pop, .pop, .pop, .pull, .pull, .complete (2, ['2']), .deliver, .pop, .complete (3, ['2']), .deliver, .pop]

theorem root1_ok : IsRoot env1 root1 :=
  ⟨0, (0, 0), { deps := [(1, ['1']), (2, ['1']), (3, ['1'])] }, by rfl⟩

theorem run1_ok : ok (rrun env1 none (rinit root1) sched1) = true := by decide +kernel

/-! ### C08: packages e = 1, n = 2 -/

def env2 : E := mkEnv [((1, ['^']), 1, [(2, ['^'])]), ((2, ['1']), 1, []), ((2, ['^']), 2, [])]
def root2 : Nd := mkRoot [(1, ['^']), (2, ['1'])]
/-- the answer for n@1 is slow -/
def sched2a : List (REvent (Nat × Str)) :=
  [.pop, .pull, .pull, .complete (1, ['^']), .deliver, .pop, .pull, .complete (2, ['^']), .deliver, .pop,
   .complete (2, ['1']), .deliver, .pop]
/-- everything arrives together -/
def sched2b : List (REvent (Nat × Str)) :=
  [.pop, .pull, .pull, .complete (1, ['^']), .complete (2, ['1']), .deliver, .pop, .pop]

theorem root2_ok : IsRoot env2 root2 :=
  ⟨0, (0, 0), { deps := [(1, ['^']), (2, ['1'])] }, by rfl⟩

theorem run2a_ok : ok (rrun env2 none (rinit root2) sched2a) = true := by decide +kernel
theorem run2b_ok : ok (rrun env2 none (rinit root2) sched2b) = true := by decide +kernel

/-! ### checkers for the restricted schedules -/

/-- run pops only, checking that nothing is ever fetched -/
def offlineRun (env : E) (lock : Option (LockTree Nat (Nat × Nat))) : Nat → St → Option St
  | 0, s => some s
  | k + 1, s =>
    match rstep env lock s .pop with
    | some (.ok s') => if s'.waiting.isEmpty then offlineRun env lock k s' else none
    | _ => none

theorem offlineRun_reach {env : E} {lock : Option (LockTree Nat (Nat × Nat))} {root : Nd} : ∀ (k : Nat) {s s' : St},
    OfflineReach env lock root s → offlineRun env lock k s = some s' → OfflineReach env lock root s' := by
  intro k
  induction k with
  | zero => intro s s' h hr; cases hr; exact h
  | succ k ih =>
    intro s s' h hr
    simp only [offlineRun] at hr
    split at hr
    · rename_i s1 hs
      split at hr
      · rename_i hw; exact ih (.step h hs (List.isEmpty_iff.mp hw)) hr
      · cases hr
    · cases hr

def roundOk (s : St) : REvent (Nat × Str) → Bool
  | .deliver => s.chan.isEmpty && s.active.isEmpty
  | _ => true

/-- run a schedule, checking that every chunk contains all outstanding responses -/
def roundRun (env : E) : List (REvent (Nat × Str)) → St → Option St
  | [], s => some s
  | ev :: evs, s =>
    match rstep env none s ev with
    | some (.ok s') =>
      if roundOk s ev then roundRun env evs s' else none
    | _ => none

theorem roundRun_reach {env : E} {root : Nd} : ∀ (evs : List (REvent (Nat × Str))) {s s' : St},
    RoundReach env root s → roundRun env evs s = some s' → RoundReach env root s' := by
  intro evs
  induction evs with
  | nil => intro s s' h hr; cases hr; exact h
  | cons ev evs ih =>
    intro s s' h hr
    simp only [roundRun] at hr
    split at hr
    · rename_i s1 hs
      split at hr
      · rename_i hc
        refine ih (.step ev h ?_ hs) hr
        rintro rfl
        simpa [roundOk] using hc
      · cases hr
    · cases hr

/-- lockfile of the tree e, n@1 -/
def lock2 : LockTree Nat (Nat × Nat) :=
  [([1], ⟨[1], some (some (1, 1)), { deps := [(2, ['^'])] }⟩), ([2], ⟨[2], some (some (2, 1)), {}⟩)]

/-- registry without package 2 -/
def env3 : E := mkEnv [((1, ['^']), 1, [(2, ['^'])])]

end Oro.Ex
