import Verif.Spec.Resolver
/- Vocabulary for resolving from a lockfile (C16, C75): what the lockfile, read as a tree of folders, offers. -/

set_option linter.unusedSectionVars false

namespace Oro
variable {N P S : Type} [DecidableEq N] [DecidableEq S]

/-- The lockfile has, at location `π`, the package `p` with requirements `m`. -/
def Holds (lock : LockTree N P) (π : List N) (p : P) (m : Manifest N) : Prop :=
  ∃ ent, lock.get? π = some ent ∧ ent.pkg = some (some p) ∧ ent.manifest = m

/-- Seen from the folder `π`, the name `n` means the lockfile's package `p` at `π'`: it is in the nearest enclosing
folder that has one of that name. -/
def Nearest (lock : LockTree N P) (π : List N) (n : N) (π' : List N) (p : P) : Prop :=
  ∃ up down, π = up ++ down ∧ π' = up ++ [n] ∧ (∃ m, Holds lock π' p m) ∧
    ∀ near, near ≠ [] → near <+: down → ∀ e, lock.get? (up ++ near ++ [n]) = some e → e.pkg = some none

/-- The package at `π` requires `n` with the specifier `spec`; the package at `[]` is the project, whose manifest is `m`. -/
def Wants (env : Env N P S) (m : Manifest N) (lock : LockTree N P) (π : List N) (n : N) (spec : S) (ty : DepType) : Prop :=
  ∃ raw, env.parse n raw = some spec ∧
    ((π = [] ∧ Requires m true n raw ty) ∨ (π ≠ [] ∧ ∃ p m', Holds lock π p m' ∧ Requires m' false n raw ty))

/-- Locations of the packages that the project needs, directly or through others. -/
inductive Needed (env : Env N P S) (m : Manifest N) (lock : LockTree N P) : List N → Prop
  | project : Needed env m lock []
  | dep {π π' : List N} {n : N} {spec : S} {ty : DepType} {p : P} : Needed env m lock π → Wants env m lock π n spec ty →
      Nearest lock π n π' p → Needed env m lock π'

/-- The lockfile settles everything the project needs: each requirement is met by the package it would load, and by no other
needed package of that name in the folders around. -/
structure Settled (env : Env N P S) (m : Manifest N) (lock : LockTree N P) : Prop where
  fits : ∀ π n spec ty, Needed env m lock π → Wants env m lock π n spec ty → ∃ π' p, Nearest lock π n π' p ∧
    env.sat p spec = true ∧
    ∀ up p' m', up <+: π → Needed env m lock (up ++ [n]) → Holds lock (up ++ [n]) p' m' → up ++ [n] ≠ π' → env.sat p' spec = false
  /-- entries are filed under their own location -/
  paths : ∀ π ent, Needed env m lock π → lock.get? π = some ent → ent.path = π
  /-- requirements can be read, and a section does not repeat a name -/
  reads : ∀ π p m', Needed env m lock π → Holds lock π p m' → m'.Proper ∧ ∀ d ∈ m'.deps ++ m'.optDeps, env.parse d.1 d.2 ≠ none

/-- In the tree `g`, each requirement is met by no package of that name in the folders around except the one it loads. -/
def Unambiguous (env : Env N P S) (g : Graph N P S) : Prop :=
  ∀ i n spec ty c, Declares g i n spec ty → NodeLoads g i n c →
    ∀ (j : Nat) (jn : Node N P S) (c' : Nat) (cn' : Node N P S), Within g i j → g.nodes[j]? = some jn → jn.children.get? n = some c' →
      g.nodes[c']? = some cn' → c' ≠ c → env.sat cn'.pkg spec = false

/-- What the registry answers to a requirement of the tree `g` satisfies it. -/
def Answered (env : Env N P S) (g : Graph N P S) : Prop :=
  ∀ i n spec ty p m', Declares g i n spec ty → env.fetch spec = some (p, m') → env.sat p spec = true

/-- Packages of the tree `g` that a project with the manifest `m` needs, directly or through others. -/
inductive Uses (g : Graph N P S) (m : Manifest N) : Nat → Prop
  | project : Uses g m 0
  | direct {n : N} {raw : Str} {ty : DepType} {c : Nat} : Requires m true n raw ty → NodeLoads g 0 n c → Uses g m c
  | dep {i : Nat} {n : N} {spec : S} {ty : DepType} {c : Nat} : Uses g m i → i ≠ 0 → Declares g i n spec ty → NodeLoads g i n c → Uses g m c

end Oro
