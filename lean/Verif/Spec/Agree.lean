import Verif.Spec.Relock
/- Vocabulary for C76 (and C08): projects in which all requirements on a name can be met by one package. -/

set_option linter.unusedSectionVars false

namespace Oro
variable {N P S : Type} [DecidableEq N] [DecidableEq S]

/-- Names of the packages needed by a project with the manifest `m`, directly or through others; `w n` is the package that
goes by the name `n`, with its manifest. -/
inductive Reached (m : Manifest N) (w : N → P × Manifest N) : N → Prop
  | direct {n : N} {raw : Str} {ty : DepType} : Requires m true n raw ty → Reached m w n
  | dep {k n : N} {raw : Str} {ty : DepType} : Reached m w k → Requires (w k).2 false n raw ty → Reached m w n

/-- The project, or a package it needs, requires `n` as `raw`. -/
def AskedFor (m : Manifest N) (w : N → P × Manifest N) (n : N) (raw : Str) : Prop :=
  (∃ ty, Requires m true n raw ty) ∨ ∃ k ty, Reached m w k ∧ Requires (w k).2 false n raw ty

/-- The lockfile, if there is one, has this package at the top level under the name `n`. -/
def LockHas (lock : Option (LockTree N P)) (n : N) (x : P × Manifest N) : Prop :=
  ∃ l, lock = some l ∧ Holds l [n] x.1 x.2

/-- The lockfile, if there is one, has no package at the top level under the name `n`. -/
def LockSilent (lock : Option (LockTree N P)) (n : N) : Prop :=
  ∀ l ent, lock = some l → l.get? [n] = some ent → ent.pkg = some none

/-- No version conflicts: under each name there is one package that meets all requirements with that name. It is the one in
the lockfile, or, if the lockfile has none, the one the registry answers to each of these requirements. -/
structure Agreed (env : Env N P S) (lock : Option (LockTree N P)) (m : Manifest N) (w : N → P × Manifest N) : Prop where
  fits : ∀ n raw, AskedFor m w n raw → ∃ spec, env.parse n raw = some spec ∧ env.sat (w n).1 spec = true ∧
    (LockHas lock n (w n) ∨ (LockSilent lock n ∧ env.fetch spec = some (w n)))
  /-- the lockfile has packages at the top level only -/
  flat : ∀ l π ent, lock = some l → l.get? π = some ent → ent.pkg = some none ∨ ∃ n, π = [n] ∧ ent.path = [n]
  /-- requirements can be read, and a section does not repeat a name -/
  reads : ∀ n, Reached m w n → (w n).2.Proper ∧ ∀ d ∈ (w n).2.deps ++ (w n).2.optDeps, env.parse d.1 d.2 ≠ none

end Oro
