import Verif.Model.AtPath
import Verif.Spec.Lockfile
/-
Vocabulary for C37 and the linkers: where a package is on disk.
-/

set_option linter.unusedSectionVars false

namespace Oro
variable {P S : Type}

/-- A package name that can be a folder name: `name`, or `@scope/name`. -/
def FolderName (n : Str) : Prop :=
  ('/' ∉ n ∧ n ≠ [] ∧ n ≠ nmWord ∧ n ≠ ['\\'] ∧ n.head? ≠ some '@') ∨
  ∃ s t : Str, n = '@' :: s ++ '/' :: t ∧ '/' ∉ s ∧ '/' ∉ t ∧ t ≠ ['\\'] ∧ t.head? ≠ some '@'

/-- the folder names a package name stands for: one, or two for a scoped package -/
def nameSegs (n : Str) : List Str := PSpec.splitChar '/' n

/-- the folder, relative to the project, of the package at location `π` -/
def folder (π : List Str) : List Str := π.flatMap fun n => nmWord :: nameSegs n

/-- the path does not lead into a package inside package `i` -/
def NoDeeper (g : Graph Str P S) (i : Nat) (rest : List Str) : Prop :=
  ∀ nd n c, g.nodes[i]? = some nd → nd.children.get? n = some c → ¬ (nmWord :: nameSegs n) <+: rest

/-- Paths below a package that the lookup gets right: no `node_modules` folder directly below another or below an unknown
scoped package, and no scope below a scope. -/
def Regular (rest : List Str) : Prop :=
  (∀ x ∈ rest, '/' ∉ x ∧ x ≠ ['\\']) ∧
  (∀ y r, rest = nmWord :: y :: r → y ≠ nmWord) ∧
  (∀ s y r, rest = nmWord :: s :: y :: r → s.head? = some '@' → y.head? ≠ some '@' ∧ r.head? ≠ some nmWord)

end Oro
