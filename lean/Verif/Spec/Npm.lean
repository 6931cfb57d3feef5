import Verif.Spec.PackageSpec
import Verif.Model.Npm
/- Vocabulary for C43. -/
set_option linter.unusedSectionVars false
namespace Oro
namespace Npm
open PSpec Auth
variable {V R U : Type}

/-- the scope in a package name: what is between `@` and the first `/` -/
def scopeIn : Str → Option Str
  | '@' :: s => if '/' ∈ s then some (s.takeWhile (· ≠ '/')) else none
  | _ => none

/-- the registry the calls name for a scope (with or without `@`): the last one counts -/
def namedFor (scope : Str) : List RegOp → Option Url
  | [] => none
  | op :: ops => (namedFor scope ops).or (match op with
    | .forScope s u => if s = scope ∨ s = '@' :: scope then some u else none
    | .default _ => none)

/-- the default registry the calls name -/
def namedDefault : List RegOp → Option Url
  | [] => none
  | op :: ops => (namedDefault ops).or (match op with
    | .default u => some u
    | .forScope _ _ => none)

/-- the package a specifier stands for -/
def Packages (spec : PackageSpec V R U) (name : Str) : Prop := ∃ sc req, Unaliased spec (.npm sc name req)

end Npm
end Oro
