import Verif.Model.Lockfile
import Verif.Spec.Resolver
/- Specification vocabulary for the lockfile properties. -/

set_option linter.unusedSectionVars false

namespace Oro
variable {V I : Type}

/-- the section of a lockfile entry for one kind of dependency -/
def LNode.section (n : LNode V I) : DepType → IMap Str Str
  | .prod => n.deps
  | .dev => n.devDeps
  | .peer => n.peerDeps
  | .opt => n.optDeps

/-- the same requirements, kind by kind, in whatever order -/
def SameReqs (a b : LNode V I) : Prop := ∀ ty k, (a.section ty).get? k = (b.section ty).get? k

/-- same path, version, source, integrity and requirements -/
structure SameEntry (a b : LNode V I) : Prop where
  path : a.path = b.path
  version : a.version = b.version
  resolved : a.resolved = b.resolved
  integrity : a.integrity = b.integrity
  reqs : SameReqs a b

/-- the same lockfile entry in every field -/
structure SameNode (a b : LNode V I) : Prop where
  entry : SameEntry a b
  name : a.name = b.name
  isRoot : a.isRoot = b.isRoot

/-- `m` and `m'` have the same keys and related values -/
def SameMap {K W : Type} [DecidableEq K] (R : W → W → Prop) (m m' : IMap K W) : Prop :=
  ∀ k, (m.get? k = none ∧ m'.get? k = none) ∨ ∃ a b, m.get? k = some a ∧ m'.get? k = some b ∧ R a b

/-- two lockfiles with the same contents, whatever the order of packages and requirements -/
structure SameLockfile (a b : Lockfile V I) : Prop where
  version : a.version = b.version
  root : SameNode a.root b.root
  packages : SameMap SameNode a.packages b.packages

/-- the entry says where the package comes from: address, version and integrity for a registry package, just the
address for directories and git -/
def Records (n : LNode V I) : Resolved V I → Prop
  | .npm version tarball integrity => n.resolved = some tarball ∧ n.version = some version ∧ n.integrity = integrity
  | .dir path => n.resolved = some path ∧ n.version = none ∧ n.integrity = none
  | .git info => n.resolved = some info ∧ n.version = none ∧ n.integrity = none

/-- dependency sections mention each name once (they are maps) -/
def LNode.WF (n : LNode V I) : Prop := ∀ ty, (n.section ty).WF

/-- all the maps in a lockfile are maps -/
structure Lockfile.WF (l : Lockfile V I) : Prop where
  root : l.root.WF
  keys : l.packages.WF
  nodes : ∀ p ∈ l.packages, p.2.WF

/-- A lockfile whose entries are filed under their own location: what `to_lockfile` produces. -/
structure Lockfile.Proper (l : Lockfile V I) : Prop where
  wf : l.WF
  isRoot : l.root.isRoot = true
  entries : ∀ p ∈ l.packages, p.2.isRoot = false ∧ p.2.path ≠ [] ∧ p.1 = joinPath p.2.path
  /-- a version number that fits a signed 64-bit integer -/
  version : l.version < 2 ^ 63

/-- A package name: `name`, or `@scope/name` – no other slashes. -/
def ValidName (n : Str) : Prop :=
  ('/' ∉ n ∧ n.head? ≠ some '@') ∨ ∃ s t : Str, n = '@' :: s ++ '/' :: t ∧ '/' ∉ s ∧ '/' ∉ t

/-- A package name as found in npm lockfiles: not empty, and not a scoped package called `node_modules`. -/
def NpmName (n : Str) : Prop :=
  n ≠ [] ∧ (('/' ∉ n ∧ n.head? ≠ some '@') ∨
    ∃ s t : Str, n = '@' :: s ++ '/' :: t ∧ '/' ∉ s ∧ '/' ∉ t ∧ t ≠ nmWord)

/-- The key npm uses for the package at location `π`: `node_modules/a/node_modules/b/...`. -/
def npmKey : List Str → Str
  | [] => []
  | [n] => nmWord ++ '/' :: n
  | n :: m :: π => nmWord ++ '/' :: n ++ '/' :: npmKey (m :: π)

end Oro
