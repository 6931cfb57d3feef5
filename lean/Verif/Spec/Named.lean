import Verif.Spec.Resolver
/- Vocabulary for C78: which package a requirement names. -/

set_option linter.unusedSectionVars false

namespace Oro
variable {N P S A : Type} [DecidableEq N] [DecidableEq S]

/-- `wants spec`: the package a specifier is for; `called p`: which package `p` is (a version of). Every link leads to a
version of the package the requirement is for. -/
def LinksNamed (g : Graph N P S) (wants : S → A) (called : P → A) : Prop :=
  ∀ i n e, Linked g i n e → ∃ dn, g.nodes[e.dst]? = some dn ∧ called dn.pkg = wants e.spec

/-- Each name stands for one package throughout: in the project, in all packages and in the lockfile. `means n` is the
package that requirements with the name `n` are for. -/
structure OneMeaning (env : Env N P S) (lock : Option (LockTree N P)) (root : Node N P S) (wants : S → A) (called : P → A)
    (means : N → A) : Prop where
  /-- requirements of the project -/
  project : ∀ n spec ty, root.reqs.get? n = some (spec, ty) → wants spec = means n
  /-- requirements of packages -/
  packages : ∀ p m n raw spec, KnownPackage env lock p m → (n, raw) ∈ m.deps ++ m.optDeps → env.parse n raw = some spec →
    wants spec = means n
  /-- the registry answers with the package it is asked for -/
  registry : ∀ spec p m, env.fetch spec = some (p, m) → called p = wants spec
  /-- the lockfile has under a name the package the name stands for -/
  lockfile : ∀ l π n ent p, lock = some l → l.get? (π ++ [n]) = some ent → ent.pkg = some (some p) → called p = means n

end Oro
