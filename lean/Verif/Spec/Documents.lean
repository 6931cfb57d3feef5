import Verif.Model.Documents
/-
Vocabulary for C79: what a JSON object says, by relations between its entries and the values meant. Only the constants for
field names and the record types of the model are used.
-/

set_option linter.unusedSectionVars false

namespace Oro
namespace Docs
open Meta (CManifest CDist CVersion CPackument)

/-- the object has no field of these names -/
def Absent (names : List Str) (m : List (Str × Json)) : Prop := ∀ e ∈ m, e.1 ∉ names

/-- the object has one field of these names, with the value `v` -/
def Once (names : List Str) (m : List (Str × Json)) (v : Json) : Prop :=
  ∃ a k b, m = a ++ (k, v) :: b ∧ k ∈ names ∧ Absent names a ∧ Absent names b

/-- the object says `x`: by one field of these names, whose value means `x`; or it has no such field and `x` is `dflt` -/
def Says {α : Type} (names : List Str) (Means : Json → α → Prop) (dflt : α) (m : List (Str × Json)) (x : α) : Prop :=
  (Absent names m ∧ x = dflt) ∨ ∃ v, Once names m v ∧ Means v x

/-- `null`, or a value with a meaning -/
def Maybe {α : Type} (Means : Json → α → Prop) (v : Json) (x : Option α) : Prop :=
  (v = .null ∧ x = none) ∨ (v ≠ .null ∧ ∃ a, Means v a ∧ x = some a)

/-- a text -/
def Text (v : Json) (s : Str) : Prop := v = .str s

/-- a table of texts; of repeated keys the last one counts -/
def Texts (v : Json) (t : IMap Str Str) : Prop :=
  ∃ l : List (Str × Str), v = .obj (l.map fun e => (e.1, .str e.2)) ∧ t = IMap.ofList l

/-- `true`, `false` or a list of names -/
def BundledAs (v : Json) (b : Bundled) : Prop :=
  (∃ x, v = .bool x ∧ b = .all x) ∨ ∃ l : List Str, v = .arr (l.map .str) ∧ b = .some l

/-- a text that is read by `parse` as `x` -/
def TextAs {α : Type} (parse : Str → Option α) (v : Json) (x : α) : Prop := ∃ s, v = .str s ∧ parse s = some x

variable {V : Type} [DecidableEq V]

/-- what a package.json, or the entry of a version, says about the package -/
structure Describes (parseV : Str → Option V) (m : List (Str × Json)) (r : CManifest V Bundled) : Prop where
  name : Says [kName] (Maybe Text) none m r.name
  version : Says [kVersion] (Maybe (TextAs parseV)) none m r.version
  dependencies : Says [kDependencies] Texts [] m r.dependencies
  devDependencies : Says [kDevDependencies] Texts [] m r.devDependencies
  optionalDependencies : Says [kOptionalDependencies] Texts [] m r.optionalDependencies
  peerDependencies : Says [kPeerDependencies] Texts [] m r.peerDependencies
  bundled : Says [kBundled, kBundle] (Maybe BundledAs) none m r.bundled

/-- where the archive is and how to check it -/
def DistAs (url : Str → Option Str) (v : Json) (d : CDist) : Prop :=
  ∃ m, v = .obj m ∧ Says [kShasum] (Maybe Text) none m d.shasum ∧ Says [kTarball] (Maybe (TextAs url)) none m d.tarball ∧
    Says [kIntegrity] (Maybe Text) none m d.integrity ∧ Says [kSignature] (Maybe Text) none m d.signature

/-- a reason, or whether it is deprecated at all -/
def DeprecatedAs (v : Json) (x : Option Deprecation) : Prop :=
  (∃ s, v = .str s ∧ x = some (some s)) ∨ (v = .bool true ∧ x = some none) ∨ (v = .bool false ∧ x = none)

/-- the entry of a version -/
def VersionAs (parseV : Str → Option V) (url : Str → Option Str) (v : Json) (x : CVersion V Bundled Deprecation) : Prop :=
  ∃ m, v = .obj m ∧ Describes parseV m x.manifest ∧ Says [kDist] (DistAs url) ⟨none, none, none, none⟩ m x.dist ∧
    Says [kShrinkwrap] (Maybe fun v b => v = .bool b) none m x.hasShrinkwrap ∧
    Says [kDeprecated] DeprecatedAs none m x.deprecated

/-- an object whose keys and values all have a meaning; of repeated keys the last one counts -/
def TableAs {K α : Type} [DecidableEq K] (key : Str → Option K) (Means : Json → α → Prop) (v : Json) (t : IMap K α) : Prop :=
  ∃ m l, v = .obj m ∧ List.Forall₂ (fun (e : Str × Json) (x : K × α) => key e.1 = some x.1 ∧ Means e.2 x.2) m l ∧ t = IMap.ofList l

/-- a registry's description of a package -/
def PackumentAs (parseV : Str → Option V) (url : Str → Option Str) (v : Json) (p : CPackument V Bundled Deprecation) : Prop :=
  ∃ m, v = .obj m ∧ Says [kVersions] (TableAs parseV (VersionAs parseV url)) [] m p.versions ∧
    Says [kTags] (TableAs some (TextAs parseV)) [] m p.tags

/-- commands: a text, a table of texts or a list of texts -/
def BinAs (v : Json) (b : Bins.Bin) : Prop :=
  (∃ s, v = .str s ∧ b = .str s) ∨ (∃ t, Texts v t ∧ b = .hash t) ∨ ∃ l : List Str, v = .arr (l.map .str) ∧ b = .array l

/-- the folder of commands -/
def DirsAs (v : Json) (b : Option Str) : Prop :=
  ∃ d, v = .obj d ∧ Says [kBin] (Maybe Text) none d b ∧ ∃ x, Says [kMan] (Maybe Text) none d x

/-- what the package.json of an installed package says about its commands and scripts -/
structure BuildAs (m : List (Str × Json)) (r : Bins.Raw) (scripts : IMap Str Str) : Prop where
  name : Says [kName] (Maybe Text) none m r.name
  bin : Says [kBin] (Maybe BinAs) none m r.bin
  dirs : ∃ d, Says [kDirectories] (Maybe DirsAs) none m d ∧ r.dirBin = d.join
  scripts : Says [kScripts] Texts [] m scripts

/-- an object whose field of these names can be understood: it has no such field, or one that satisfies the condition -/
def Legible (names : List Str) (P : Json → Prop) (m : List (Str × Json)) : Prop :=
  Absent names m ∨ ∃ v, Once names m v ∧ P v

/-- `null` or a text -/
def TextOrNull (v : Json) : Prop := v = .null ∨ ∃ s, v = .str s
/-- a list of texts -/
def TextList (v : Json) : Prop := ∃ l : List Str, v = .arr (l.map .str)
/-- a text, or an object with texts in these fields -/
def TextOrObject (fields : List Str) (v : Json) : Prop :=
  (∃ s, v = .str s) ∨ ∃ m, v = .obj m ∧ ∀ f ∈ fields, Legible [f] TextOrNull m
/-- `null`, or one for which the condition holds -/
def OrNull (P : Json → Prop) (v : Json) : Prop := v = .null ∨ P v

/-- the fields of a package.json that are only looked at, not used, when the name of a package is taken from it -/
structure LegibleManifest (m : List (Str × Json)) : Prop where
  description : Legible ["description".toList] TextOrNull m
  homepage : Legible ["homepage".toList] TextOrNull m
  license : Legible ["license".toList, "licence".toList] TextOrNull m
  bugs : Legible ["bugs".toList] (OrNull (TextOrObject ["url".toList, "email".toList])) m
  keywords : Legible ["keywords".toList] TextList m
  bin : Legible ["bin".toList] (OrNull fun v => ∃ b, BinAs v b) m
  author : Legible ["author".toList] (OrNull (TextOrObject ["name".toList, "email".toList, "url".toList])) m
  contributors : Legible ["contributors".toList]
    (fun v => ∃ l, v = .arr l ∧ ∀ x ∈ l, TextOrObject ["name".toList, "email".toList, "url".toList] x) m
  files : Legible ["files".toList] (OrNull TextList) m
  main : Legible ["main".toList] TextOrNull m
  man : Legible ["man".toList] (OrNull fun v => (∃ s, v = .str s) ∨ TextList v) m
  type : Legible ["type".toList] TextOrNull m
  repository : Legible ["repository".toList] (OrNull (TextOrObject ["type".toList, "url".toList, "directory".toList])) m
  scripts : Legible ["scripts".toList] (fun v => ∃ t, Texts v t) m
  os : Legible ["os".toList] TextList m
  cpu : Legible ["cpu".toList] TextList m
  «private» : Legible ["private".toList] (OrNull fun v => ∃ b, v = .bool b) m
  publishConfig : Legible ["publishConfig".toList] (fun v => ∃ o, v = .obj o) m
  workspaces : Legible ["workspaces".toList] TextList m

end Docs
end Oro
