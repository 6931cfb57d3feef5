import Verif.Proofs.LockNpm
/- Concrete trees and lockfiles used as witnesses. -/

set_option linter.unusedSectionVars false

namespace Oro.ExL
open Oro

/-- a package is (name, version); a specifier is (name, text) -/
abbrev Pk := Str × Nat
abbrev Sp := Str × Str
abbrev G := Graph Str Pk Sp
abbrev St := RState Str Pk Sp
abbrev E := Env Str Pk Sp
abbrev Nd := Node Str Pk Sp

/-- "1" ↦ exactly version 1, "2" ↦ exactly 2, "^" ↦ anything -/
def sat (p : Pk) (s : Sp) : Bool :=
  p.1 == s.1 && (s.2 == ['^'] || (s.2 == ['1'] && p.2 == 1) || (s.2 == ['2'] && p.2 == 2))

def mkEnv (table : List (Sp × Nat × List Sp)) : E where
  parse n s := some (n, s)
  sat := sat
  fetch s := (table.lookup s).map fun r => ((s.1, r.1), { deps := r.2 })
  nameLe a b := strLe a.1 b.1
  concurrency := 10

def mkRoot (deps : List Sp) : Nd :=
  { name := [], pkg := (['p'], 0), reqs := deps.map fun d => (d.1, (d, DepType.prod)) }

def ok : Option (Except ResolveErr St) → Bool
  | some (.ok _) => true
  | _ => false

def get : Option (Except ResolveErr St) → St
  | some (.ok s) => s
  | _ => rinit (mkRoot [])

theorem get_eq {x : Option (Except ResolveErr St)} (h : ok x = true) : x = some (.ok (get x)) := by
  unfold ok at h
  split at h
  · rfl
  · cases h

def final (env : E) (lock : Option (LockTree Str Pk)) (root : Nd) (evs : List (REvent Sp)) : St :=
  get (rrun env lock (rinit root) evs)

theorem final_reach {env : E} {lock : Option (LockTree Str Pk)} {root : Nd} {evs : List (REvent Sp)}
    (h : ok (rrun env lock (rinit root) evs) = true) : RReach env lock root (final env lock root evs) :=
  rrun_reach evs .init (get_eq h)

/-! packages e and n; e accepts any n, the project wants n@1 -/

def env : E := mkEnv [((['e'], ['^']), 1, [(['n'], ['^'])]), ((['n'], ['1']), 1, []), ((['n'], ['^']), 2, [])]
def root : Nd := mkRoot [(['e'], ['^']), (['n'], ['1'])]
/-- the answer for n@1 is slow -/
def schedA : List (REvent Sp) :=
  [.pop, .pull, .pull, .complete (['e'], ['^']), .deliver, .pop, .pull, .complete (['n'], ['^']), .deliver, .pop,
   .complete (['n'], ['1']), .deliver, .pop]

theorem root_ok : IsRoot env root := ⟨[], (['p'], 0), { deps := [(['e'], ['^']), (['n'], ['1'])] }, by rfl⟩

theorem runA_ok : ok (rrun env none (rinit root) schedA) = true := by decide +kernel

/-- the resolved tree: e, e/n@2, n@1 -/
def treeA : St := final env none root schedA

/-- everything is an npm package with a tarball and an integrity -/
def view : LockView Pk Sp Nat Nat where
  pkgName p := p.1
  resolved p := .npm p.2 ('h' :: 't' :: 't' :: 'p' :: p.1) (some 7)
  reqStr s := s.2

/-- numbers in unary -/
def codec : Codec Nat Nat where
  showV n := List.replicate n 'v'
  parseV s := some s.length
  showI n := List.replicate n 'i'
  parseI s := some s.length
  parse_showV := by simp
  parse_showI := by simp

def lockA : Lockfile Nat Nat := (toLockfile view treeA.graph).getD ⟨0, ⟨[], true, [], none, none, none, [], [], [], []⟩, []⟩

theorem lockA_eq : toLockfile view treeA.graph = some lockA := by
  obtain ⟨l, hl⟩ := toLockfile_isSome (((final_reach runA_ok).sinv root_ok).pinv.ginv.folderTree) view
  have hl' : toLockfile view treeA.graph = some l := hl
  simp [lockA, hl']

/-- `to_package` for these entries -/
def toPackage (n : LNode Nat Nat) : Option (Option Pk) := some (n.version.map fun v => (n.name, v))

/-- resolving again, from the lockfile just made -/
def treeB : St := final env (some (lockA.tree toPackage)) root [.pop, .pop, .pop]

theorem runB_ok : ok (rrun env (some (lockA.tree toPackage)) (rinit root) [.pop, .pop, .pop]) = true := by decide +kernel

end Oro.ExL
