import Verif.Spec.Resolver
/- Vocabulary for C77: registries in which no package requires itself through others. -/

set_option linter.unusedSectionVars false

namespace Oro
variable {N P S : Type} [DecidableEq N] [DecidableEq S]

/-- The registry, or the lockfile, offers the package `p` for the specifier `spec`. -/
def Offers (env : Env N P S) (lock : Option (LockTree N P)) (spec : S) (p : P) : Prop :=
  (∃ m, env.fetch spec = some (p, m)) ∨
  ∃ l π ent, lock = some l ∧ l.get? π = some ent ∧ ent.pkg = some (some p) ∧ env.sat p spec = true

/-- No package requires itself, directly or through others: packages can be ranked such that what is offered for a requirement
of a package ranks lower than that package, and what is offered for a requirement of the project ranks lower than `depth`.
No package has more than `width` requirements. -/
structure Acyclic (env : Env N P S) (lock : Option (LockTree N P)) (m : Manifest N) (rank : P → Nat) (depth width : Nat) : Prop where
  project : ∀ n raw spec p, (n, raw) ∈ m.deps ++ m.optDeps ++ m.devDeps → env.parse n raw = some spec → Offers env lock spec p →
    rank p < depth
  package : ∀ p m' n raw spec p', KnownPackage env lock p m' → (n, raw) ∈ m'.deps ++ m'.optDeps → env.parse n raw = some spec →
    Offers env lock spec p' → rank p' < rank p
  width : ∀ p m', KnownPackage env lock p m' → m'.deps.length + m'.optDeps.length ≤ width

/-- Number of packages in a tree of the given depth, where each has `width` others below it. -/
def treeSize (width : Nat) : Nat → Nat
  | 0 => 0
  | depth + 1 => 1 + width * treeSize width depth

end Oro
