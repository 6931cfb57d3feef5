import Verif.Model.Stack
import Verif.Model.Whole
/-
`oro apply` and `oro reapply` (Model/Whole.lean) on top of the real readers of documents, specifiers and versions (Model/Stack.lean):
from package.json and the registry's documents, as JSON, to node_modules and the lockfile.
-/

set_option linter.unusedSectionVars false

namespace Oro
namespace Stack
open PSpec Nassun
open Hoisted (Tree Pkgs)

variable {V R U I : Type} [DecidableEq V]

/-- src/commands/apply.rs:27-32, maintainer.rs:333-340: package.json is read as a `CorgiManifest` -/
def Sys.readProject (k : Sys V R U I) (j : Json) : Option (Manifest Str) := (Docs.readPackageJson k.base.spec.parseV j).map sections

/-- client.rs:321-335 `dummy_from_manifest`. Simplification: its name is left out, as it is used nowhere -/
def dummy : Resolution V R U I := .dir [] ['.']

/-- what `oro apply` runs with -/
def Sys.setting (k : Sys V R U I) (c : Codec V I) (pk : Pkgs (Resolution V R U I)) (script : List Nat → Cli.Event → Tree → Tree × Bool) :
    Whole.Setting (Resolution V R U I) (PackageSpec V R U) V I where
  env := k.env
  v := k.view
  c := c
  toPackage := k.toPackage
  pk := pk
  rootPkg _ := dummy
  script := script

end Stack
end Oro
