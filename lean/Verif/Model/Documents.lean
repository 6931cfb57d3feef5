import Verif.Model.Json
import Verif.Model.Metadata
import Verif.Model.Bins
/-
Model of how orogene reads the descriptions of packages: the `Deserialize` implementations that serde derives for
/repo/crates/oro-common/src/packument.rs, manifest.rs and build_manifest.rs.

A JSON text is a `Json` value here; its objects list their entries in the order of the text, repeated keys included.
`none`: reading fails. A derived visitor goes through the entries, and fails at the first value it cannot read and at the
first repeated field; which of several faults is reported is not modelled. Simplification: serde also reads a struct from
an array of its fields in order; here arrays are refused.
-/

set_option linter.unusedSectionVars false

namespace Oro
namespace Docs

/-- "name" -/
def kName : Str := ['n', 'a', 'm', 'e']
/-- "version" -/
def kVersion : Str := ['v', 'e', 'r', 's', 'i', 'o', 'n']
/-- "dependencies" -/
def kDependencies : Str := ['d', 'e', 'p', 'e', 'n', 'd', 'e', 'n', 'c', 'i', 'e', 's']
/-- "devDependencies" -/
def kDevDependencies : Str := ['d', 'e', 'v', 'D', 'e', 'p', 'e', 'n', 'd', 'e', 'n', 'c', 'i', 'e', 's']
/-- "optionalDependencies" -/
def kOptionalDependencies : Str := ['o', 'p', 't', 'i', 'o', 'n', 'a', 'l', 'D', 'e', 'p', 'e', 'n', 'd', 'e', 'n', 'c', 'i', 'e', 's']
/-- "peerDependencies" -/
def kPeerDependencies : Str := ['p', 'e', 'e', 'r', 'D', 'e', 'p', 'e', 'n', 'd', 'e', 'n', 'c', 'i', 'e', 's']
/-- "bundledDependencies" -/
def kBundled : Str := ['b', 'u', 'n', 'd', 'l', 'e', 'd', 'D', 'e', 'p', 'e', 'n', 'd', 'e', 'n', 'c', 'i', 'e', 's']
/-- "bundleDependencies" -/
def kBundle : Str := ['b', 'u', 'n', 'd', 'l', 'e', 'D', 'e', 'p', 'e', 'n', 'd', 'e', 'n', 'c', 'i', 'e', 's']
/-- "dist" -/
def kDist : Str := ['d', 'i', 's', 't']
/-- "_hasShrinkwrap" -/
def kShrinkwrap : Str := ['_', 'h', 'a', 's', 'S', 'h', 'r', 'i', 'n', 'k', 'w', 'r', 'a', 'p']
/-- "deprecated" -/
def kDeprecated : Str := ['d', 'e', 'p', 'r', 'e', 'c', 'a', 't', 'e', 'd']
/-- "shasum" -/
def kShasum : Str := ['s', 'h', 'a', 's', 'u', 'm']
/-- "tarball" -/
def kTarball : Str := ['t', 'a', 'r', 'b', 'a', 'l', 'l']
/-- "integrity" -/
def kIntegrity : Str := ['i', 'n', 't', 'e', 'g', 'r', 'i', 't', 'y']
/-- "npm-signature" -/
def kSignature : Str := ['n', 'p', 'm', '-', 's', 'i', 'g', 'n', 'a', 't', 'u', 'r', 'e']
/-- "versions" -/
def kVersions : Str := ['v', 'e', 'r', 's', 'i', 'o', 'n', 's']
/-- "dist-tags" -/
def kTags : Str := ['d', 'i', 's', 't', '-', 't', 'a', 'g', 's']
/-- "bin" -/
def kBin : Str := ['b', 'i', 'n']
/-- "directories" -/
def kDirectories : Str := ['d', 'i', 'r', 'e', 'c', 't', 'o', 'r', 'i', 'e', 's']
/-- "man" -/
def kMan : Str := ['m', 'a', 'n']
/-- "scripts" -/
def kScripts : Str := ['s', 'c', 'r', 'i', 'p', 't', 's']
/-- "description" -/
def kDescription : Str := ['d', 'e', 's', 'c', 'r', 'i', 'p', 't', 'i', 'o', 'n']
/-- "homepage" -/
def kHomepage : Str := ['h', 'o', 'm', 'e', 'p', 'a', 'g', 'e']
/-- "license" -/
def kLicense : Str := ['l', 'i', 'c', 'e', 'n', 's', 'e']
/-- "licence" -/
def kLicence : Str := ['l', 'i', 'c', 'e', 'n', 'c', 'e']
/-- "bugs" -/
def kBugs : Str := ['b', 'u', 'g', 's']
/-- "url" -/
def kUrl : Str := ['u', 'r', 'l']
/-- "email" -/
def kEmail : Str := ['e', 'm', 'a', 'i', 'l']
/-- "keywords" -/
def kKeywords : Str := ['k', 'e', 'y', 'w', 'o', 'r', 'd', 's']
/-- "author" -/
def kAuthor : Str := ['a', 'u', 't', 'h', 'o', 'r']
/-- "contributors" -/
def kContributors : Str := ['c', 'o', 'n', 't', 'r', 'i', 'b', 'u', 't', 'o', 'r', 's']
/-- "files" -/
def kFiles : Str := ['f', 'i', 'l', 'e', 's']
/-- "main" -/
def kMain : Str := ['m', 'a', 'i', 'n']
/-- "type" -/
def kType : Str := ['t', 'y', 'p', 'e']
/-- "repository" -/
def kRepository : Str := ['r', 'e', 'p', 'o', 's', 'i', 't', 'o', 'r', 'y']
/-- "directory" -/
def kDirectory : Str := ['d', 'i', 'r', 'e', 'c', 't', 'o', 'r', 'y']
/-- "os" -/
def kOs : Str := ['o', 's']
/-- "cpu" -/
def kCpu : Str := ['c', 'p', 'u']
/-- "private" -/
def kPrivate : Str := ['p', 'r', 'i', 'v', 'a', 't', 'e']
/-- "publishConfig" -/
def kPublishConfig : Str := ['p', 'u', 'b', 'l', 'i', 's', 'h', 'C', 'o', 'n', 'f', 'i', 'g']
/-- "workspaces" -/
def kWorkspaces : Str := ['w', 'o', 'r', 'k', 's', 'p', 'a', 'c', 'e', 's']

/-- `String` -/
def text : Json → Option Str
  | .str s => some s
  | _ => none

/-- `bool` -/
def flag : Json → Option Bool
  | .bool b => some b
  | _ => none

/-- `Option<T>` -/
def orNull {α : Type} (read : Json → Option α) : Json → Option (Option α)
  | .null => some none
  | v => (read v).map some

/-- the values of a list, if all of them can be read -/
def all {α : Type} (read : Json → Option α) : List Json → Option (List α)
  | [] => some []
  | v :: l => match read v, all read l with
    | some x, some r => some (x :: r)
    | _, _ => none

/-- `Vec<T>` -/
def list {α : Type} (read : Json → Option α) : Json → Option (List α)
  | .arr l => all read l
  | _ => none

/-- the entries of an object, if all of them can be read -/
def entries {K α : Type} (key : Str → Option K) (read : Json → Option α) : List (Str × Json) → Option (List (K × α))
  | [] => some []
  | (k, v) :: m => match key k, read v, entries key read m with
    | some a, some x, some r => some ((a, x) :: r)
    | _, _, _ => none

/-- `HashMap<K, T>`, `IndexMap<K, T>`: later entries replace earlier ones -/
def table {K α : Type} [DecidableEq K] (key : Str → Option K) (read : Json → Option α) : Json → Option (IMap K α)
  | .obj m => (entries key read m).map IMap.ofList
  | _ => none

/-- a field of a struct that goes by any of the `names` (`rename`, `alias`), with a value to take when it is missing
(`#[serde(default)]`, or `None` for an `Option`); a repeated field is an error -/
def field {α : Type} (names : List Str) (read : Json → Option α) (dflt : α) (m : List (Str × Json)) : Option α :=
  match m.filter fun e => names.contains e.1 with
  | [] => some dflt
  | [e] => read e.2
  | _ => none

/-- manifest.rs:272-277 `BundledDependencies` -/
inductive Bundled where
  | all (b : Bool)
  | some (l : List Str)
  deriving DecidableEq

/-- `#[serde(untagged)]` for `BundledDependencies` -/
def bundled : Json → Option Bundled
  | .bool b => Option.some (.all b)
  | .arr l => (Docs.all text l).map .some
  | _ => none

/-- `IndexMap<String, String>` -/
def textTable : Json → Option (IMap Str Str) := table some text

section
variable {V : Type} [DecidableEq V] (parseV : Str → Option V)

/-- node_semver: a version is read from a text -/
def version (v : Json) : Option V := (text v).bind parseV

open Meta (CManifest CDist CVersion CPackument)

/-- manifest.rs:11-28 `CorgiManifest`, with the names of `rename_all = "camelCase"` -/
def readManifest (m : List (Str × Json)) : Option (CManifest V Bundled) := do
  let name ← field [kName] (orNull text) none m
  let version ← field [kVersion] (orNull (version parseV)) none m
  let deps ← field [kDependencies] textTable [] m
  let dev ← field [kDevDependencies] textTable [] m
  let optional ← field [kOptionalDependencies] textTable [] m
  let peer ← field [kPeerDependencies] textTable [] m
  let bundled ← field [kBundled, kBundle] (orNull bundled) none m
  pure ⟨name, version, deps, dev, optional, peer, bundled⟩

/-- packument.rs:213-221 `CorgiDist`; `url`: `Url::deserialize` -/
def readDist (url : Str → Option Str) : Json → Option CDist
  | .obj m => do
    let shasum ← field [kShasum] (orNull text) none m
    let tarball ← field [kTarball] (orNull fun v => (text v).bind url) none m
    let integrity ← field [kIntegrity] (orNull text) none m
    let signature ← field [kSignature] (orNull text) none m
    pure ⟨shasum, tarball, integrity, signature⟩
  | _ => none

/-- packument.rs:159-164 `DeprecationInfo`: the reason, if it is known -/
abbrev Deprecation := Option Str

/-- packument.rs:190-208 `deserialize_deprecation_info` -/
def deprecation : Json → Option (Option Deprecation)
  | .str s => some (some (some s))
  | .bool b => some (if b then some none else none)
  | _ => none

/-- packument.rs:69-83 `CorgiVersionMetadata`: the fields that are not its own are handed to the manifest (`flatten`) -/
def readVersion (url : Str → Option Str) : Json → Option (CVersion V Bundled Deprecation)
  | .obj m => do
    let dist ← field [kDist] (readDist url) ⟨none, none, none, none⟩ m
    let shrinkwrap ← field [kShrinkwrap] (orNull flag) none m
    let deprecated ← field [kDeprecated] deprecation none m
    let manifest ← readManifest parseV m
    pure ⟨dist, shrinkwrap, manifest, deprecated⟩
  | _ => none

/-- packument.rs:15-21 `CorgiPackument`, read at oro-client/src/api/packument.rs:26-33 -/
def readPackument (url : Str → Option Str) : Json → Option (CPackument V Bundled Deprecation)
  | .obj m => do
    let versions ← field [kVersions] (table parseV (readVersion parseV url)) [] m
    let tags ← field [kTags] (table some (version parseV)) [] m
    pure ⟨versions, tags⟩
  | _ => none

/-- src/commands/apply.rs:27-32, dir.rs:30-38: a package.json -/
def readPackageJson : Json → Option (CManifest V Bundled)
  | .obj m => readManifest parseV m
  | _ => none

/-! ### the full manifest, which is read for the name of a package in a folder or repository -/

/-- a field whose value only has to be readable -/
def fine (names : List Str) (ok : Json → Bool) (m : List (Str × Json)) : Bool :=
  (field names (fun v => if ok v then some () else none) () m).isSome

/-- `Option<String>` -/
def isText (v : Json) : Bool := (orNull text v).isSome
/-- `Vec<String>` -/
def isTexts (v : Json) : Bool := (list text v).isSome
/-- a struct all of whose fields are `Option<String>`s with these names (manifest.rs:288-305, 351-360), or a text -/
def isTextOr (fields : List Str) : Json → Bool
  | .str _ => true
  | .obj m => fields.all fun f => fine [f] isText m
  | _ => false
/-- `null`, or something else -/
def orNull' (ok : Json → Bool) : Json → Bool
  | .null => true
  | v => ok v
/-- manifest.rs:315-322 `Bin`: a text, a table of texts or a list of texts -/
def readBin : Json → Option Bins.Bin
  | .str s => some (.str s)
  | .obj m => (textTable (.obj m)).map .hash
  | .arr l => (Docs.all text l).map .array
  | _ => none
/-- manifest.rs:324-330 `Man` -/
def isMan : Json → Bool
  | .str _ => true
  | v => isTexts v
/-- a list of persons -/
def isPersons : Json → Bool
  | .arr l => l.all (isTextOr [kName, kEmail, kUrl])
  | _ => false
/-- `bool` -/
def isFlag : Json → Bool
  | .bool _ => true
  | _ => false
/-- a table of anything -/
def isObject : Json → Bool
  | .obj _ => true
  | _ => false

/-- manifest.rs:30-198 `Manifest`: the fields it shares with the reduced one, provided that the others can be read
(`exports`, `imports`, `config`, `engines` and unknown fields may have any value; `directories` is skipped) -/
def readFullManifest (m : List (Str × Json)) : Option (CManifest V Bundled) :=
  if fine [kDescription] isText m && fine [kHomepage] isText m && fine [kLicense, kLicence] isText m &&
      fine [kBugs] (orNull' (isTextOr [kUrl, kEmail])) m && fine [kKeywords] isTexts m &&
      fine [kBin] (orNull' fun v => (readBin v).isSome) m && fine [kAuthor] (orNull' (isTextOr [kName, kEmail, kUrl])) m &&
      fine [kContributors] isPersons m && fine [kFiles] (orNull' isTexts) m && fine [kMain] isText m &&
      fine [kMan] (orNull' isMan) m && fine [kType] isText m &&
      fine [kRepository] (orNull' (isTextOr [kType, kUrl, kDirectory])) m && fine [kScripts] (fun v => (textTable v).isSome) m &&
      fine [kOs] isTexts m && fine [kCpu] isTexts m && fine [kPrivate] (orNull' isFlag) m &&
      fine [kPublishConfig] isObject m && fine [kWorkspaces] isTexts m then
    readManifest parseV m
  else none

/-- dir.rs:39-70 `name_from_path`: the name in the full manifest, or the folder's -/
def nameFromPath (folder : Option Str) : Json → Option Str
  | .obj m => (readFullManifest parseV m).bind fun r => r.name.or folder
  | _ => none

end

/-- manifest.rs:307-311 `Directories`: the field `bin`; `man` has to be readable -/
def readDirs : Json → Option (Option Str)
  | .obj d => do
    let b ← field [kBin] (orNull text) none d
    let _ ← field [kMan] (orNull text) none d
    pure b
  | _ => none

/-- build_manifest.rs:12-26 `RawBuildManifest`, and the scripts -/
def readBuild : Json → Option (Bins.Raw × IMap Str Str)
  | .obj m => do
    let name ← field [kName] (orNull text) none m
    let bin ← field [kBin] (orNull readBin) none m
    let dirs ← field [kDirectories] (orNull readDirs) none m
    let scripts ← field [kScripts] textTable [] m
    pure (⟨name, bin, dirs.join⟩, scripts)
  | _ => none

end Docs
end Oro
