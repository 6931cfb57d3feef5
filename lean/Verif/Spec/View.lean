import Verif.Model.View
import Verif.Spec.Documents
import Verif.Spec.Bins
/- Vocabulary for C83: what `oro view` shows. -/
set_option linter.unusedSectionVars false
namespace Oro
namespace View
open Docs Meta

/-- the text contains this part -/
def Prints (out part : Str) : Prop := ∃ a b, out = a ++ part ++ b

/-- the first line of the text -/
def FirstLine (out line : Str) : Prop := ∃ b, out = line ++ '\n' :: b

/-- a person: a text, or an object -/
def PersonAs (v : Json) (p : Person) : Prop :=
  (∃ s, v = .str s ∧ p = .str s) ∨
  ∃ m n e u, v = .obj m ∧ Says [kName] (Maybe Text) none m n ∧ Says [kEmail] (Maybe Text) none m e ∧
    Says [kUrl] (Maybe Text) none m u ∧ p = .obj n e u

/-- who published a version -/
def UserAs (v : Json) (u : Str × Option Str) : Prop :=
  ∃ m, v = .obj m ∧ Once [kName] m (.str u.1) ∧ Says [kEmail] (Maybe Text) none m u.2

/-- a list whose elements all have a meaning -/
def ListAs {α : Type} (Means : Json → α → Prop) (v : Json) (l : List α) : Prop := ∃ js, v = .arr js ∧ List.Forall₂ Means js l

variable {V : Type} [DecidableEq V]

/-- what the entry of a version says, as far as it is shown -/
structure InfoAs (parseV : Str → Option V) (url : Str → Option Str) (v : Json) (i : Info V) : Prop where
  entry : ∃ m, v = .obj m ∧ Describes parseV m i.manifest ∧
    Says [kDist] (DistAs url) ⟨none, none, none, none⟩ m i.dist ∧
    Says [kDeprecated] DeprecatedAs none m i.deprecated ∧
    Says [kMaintainers] (ListAs PersonAs) [] m i.maintainers ∧
    Says [kNpmUser] (Maybe UserAs) none m i.user ∧
    Says [kDescription] (Maybe Text) none m i.description ∧
    Says [kLicense, kLicence] (Maybe Text) none m i.license ∧
    Says [kHomepage] (Maybe Text) none m i.homepage ∧
    Says [kKeywords] (ListAs Text) [] m i.keywords ∧
    Says [kBin] (Maybe BinAs) none m i.bin

/-- the commands that an install of this version makes, if its package.json says the same; `disk`, `cwd` as for `Bins.normalize` -/
def Installs (ord : IMap Str Str → List (Str × Str)) (disk : Bins.Disk) (cwd : Loc) (dirBin : Option Str) (i : Info V)
    (cmds : IMap Str (List Comp)) : Prop :=
  Bins.normalize ord disk cwd ⟨i.manifest.name, i.bin, dirBin⟩ = some cmds

end View
end Oro
