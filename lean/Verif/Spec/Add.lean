import Verif.Model.Add
import Verif.Spec.Fetch
/- Vocabulary for C74. -/

set_option linter.unusedSectionVars false

namespace Oro
namespace Add
open PSpec Nassun

variable {V R U I : Type}

/-- A registry package asked for: `name`, `name@request`, `other@npm:name`, `other@npm:name@request`. `other`: the name
it is to be installed under, if one is given. -/
inductive Asked (E : SpecEnv V R U) : Str → Option Str → Option Str → Str → Option (VersionSpec V R) → Prop
  | plain {t m : Str} {sc : Option Str} {q : Option (VersionSpec V R)} : RegistryText E t (.npm sc m q) → Asked E t none sc m q
  | other {t m a : Str} {sa sc : Option Str} {q : Option (VersionSpec V R)} : NameText sa a → RegistryText E t (.npm sc m q) →
      Asked E (a ++ ['@', 'n', 'p', 'm', ':'] ++ t) (some a) sc m q

/-- the specifier of a registry package, with the name it is to be installed under -/
def spec (other sc : Option Str) (m : Str) (q : Option (VersionSpec V R)) : PackageSpec V R U :=
  match other with
  | none => .npm sc m q
  | some a => .alias a (.npm sc m q)

/-- the name it is installed under -/
def called (other : Option Str) (m : Str) : Str := other.getD m

/-- the requirement in package.json: `request`, or `npm:name@request` -/
def entryText (other : Option Str) (m request : Str) : Str :=
  match other with
  | none => request
  | some _ => ['n', 'p', 'm', ':'] ++ m ++ ['@'] ++ request

end Add
end Oro
