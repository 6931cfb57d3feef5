import Verif.Model.Documents
import Verif.Base.Sort
/-
Model of `oro view` and of what it reads: /repo/src/commands/view.rs:27-249, /repo/crates/nassun/src/fetch/npm.rs:79-91, 126-150,
and the `Deserialize` implementations of `Packument`, `VersionMetadata` and `Dist` (/repo/crates/oro-common/src/packument.rs:24-35,
86-106, 159-164, 224-240) and of `Person` (manifest.rs:296-311).

Modelled: the plain output (without `--json`), with colours off, as the text printed to the standard output and whether the
command succeeds. The resolution of the specifier is not part of it: the version it gives is an argument.
-/

set_option linter.unusedSectionVars false

namespace Oro
namespace View
open Docs Meta

/-- "maintainers" -/
def kMaintainers : Str := ['m', 'a', 'i', 'n', 't', 'a', 'i', 'n', 'e', 'r', 's']
/-- "_npmUser" -/
def kNpmUser : Str := ['_', 'n', 'p', 'm', 'U', 's', 'e', 'r']
/-- "fileCount" -/
def kFileCount : Str := ['f', 'i', 'l', 'e', 'C', 'o', 'u', 'n', 't']
/-- "unpackedSize" -/
def kUnpackedSize : Str := ['u', 'n', 'p', 'a', 'c', 'k', 'e', 'd', 'S', 'i', 'z', 'e']
/-- "time" -/
def kTime : Str := ['t', 'i', 'm', 'e']

/-- manifest.rs:296-311 `PersonField` -/
inductive Person where
  | str (s : Str)
  | obj (name email url : Option Str)
  deriving DecidableEq

/-- what is shown of a version (packument.rs:86-106 `VersionMetadata`); the tarball's address is a text here -/
structure Info (V : Type) where
  manifest : CManifest V Bundled
  dist : CDist
  unpacked : Option Nat
  deprecated : Option Deprecation
  maintainers : List Person
  /-- packument.rs:159-164 `NpmUser`: name and address -/
  user : Option (Str × Option Str)
  description : Option Str
  license : Option Str
  homepage : Option Str
  keywords : List Str
  bin : Option Bins.Bin

/-- packument.rs:24-35 `Packument` -/
structure Doc (V : Type) where
  versions : IMap V (Info V)
  time : IMap Str Str

/-! ### reading -/

/-- manifest.rs:296-311 `PersonField` -/
def readPerson : Json → Option Person
  | .str s => some (.str s)
  | .obj m => do
    let name ← field [kName] (orNull text) none m
    let email ← field [kEmail] (orNull text) none m
    let url ← field [kUrl] (orNull text) none m
    pure (.obj name email url)
  | _ => none

/-- packument.rs:159-164 `NpmUser`: the name has to be there -/
def readUser : Json → Option (Str × Option Str)
  | .obj m => do
    let name ← field [kName] (fun v => (text v).map some) none m
    let email ← field [kEmail] (orNull text) none m
    name.map fun n => (n, email)
  | _ => none

section
variable {V : Type} [DecidableEq V] (parseV : Str → Option V) (url : Str → Option Str) (size : Json → Option Nat)

/-- packument.rs:224-240 `Dist`; `size`: reading a `usize` -/
def readFullDist (v : Json) : Option (CDist × Option Nat) :=
  match v with
  | .obj m => do
    let d ← readDist url (.obj m)
    let _ ← field [kFileCount] (orNull size) none m
    let u ← field [kUnpackedSize] (orNull size) none m
    pure (d, u)
  | _ => none

/-- packument.rs:86-106 `VersionMetadata` -/
def readInfo : Json → Option (Info V)
  | .obj m => do
    let manifest ← readFullManifest parseV m
    let dist ← field [kDist] (readFullDist url size) (⟨none, none, none, none⟩, none) m
    let _ ← field [kShrinkwrap] (orNull flag) none m
    let deprecated ← field [kDeprecated] deprecation none m
    let maintainers ← field [kMaintainers] (list readPerson) [] m
    let user ← field [kNpmUser] (orNull readUser) none m
    let description ← field [kDescription] (orNull text) none m
    let license ← field [kLicense, kLicence] (orNull text) none m
    let homepage ← field [kHomepage] (orNull text) none m
    let keywords ← field [kKeywords] (list text) [] m
    let bin ← field [kBin] (orNull readBin) none m
    pure ⟨manifest, dist.1, dist.2, deprecated, maintainers, user, description, license, homepage, keywords, bin⟩
  | _ => none

/-- packument.rs:24-35 `Packument`: all versions have to be readable -/
def readDoc : Json → Option (Doc V)
  | .obj m => do
    let versions ← field [kVersions] (table parseV (readInfo parseV url size)) [] m
    let time ← field [kTime] textTable [] m
    let _ ← field [kTags] (table some (version parseV)) [] m
    pure ⟨versions, time⟩
  | _ => none
end

/-! ### printing -/

/-- the surroundings -/
structure Env (V : Type) where
  /-- printing a version -/
  showV : V → Str
  /-- `chrono`, `chrono_humanize`: how long ago a date was; `none`: it is not a date -/
  age : Str → Option Str
  /-- `humansize` -/
  human : Nat → Str
  /-- `term_grid::Grid::fit_into_width`: cells laid out in columns; `none`: they do not fit -/
  fit : List Str → Nat → Option Str
  /-- the width of the terminal, or 80 -/
  width : Nat
  /-- the iteration order of a hash map -/
  ord : IMap Str Str → List (Str × Str)

/-- `println!` -/
def ln (s : Str) : Str := s ++ ['\n']

/-- a number -/
def num (n : Nat) : Str := Nat.toDigits 10 n

/-- text that is printed if there is something to be shown -/
def shown {α : Type} (o : Option α) (f : α → Str) : Str := match o with
  | some a => f a
  | none => []

section
variable {V : Type} (E : Env V)

/-- view.rs:74-77, 219-224: the version in the entry, or 0.0.0 -/
def versionText (i : Info V) : Str := match i.manifest.version with
  | some v => E.showV v
  | none => ['0', '.', '0', '.', '0']

/-- view.rs:66-87 -/
def header (i : Info V) (releases : Nat) : Str :=
  ln (i.manifest.name.getD [] ++ ['@'] ++ versionText E i ++ " | ".toList ++ i.license.getD "Proprietary".toList ++ " | deps: ".toList ++
    num i.manifest.dependencies.length ++ " | releases: ".toList ++ num releases)

/-- view.rs:89-97 -/
def about (i : Info V) : Str := shown i.description ln ++ shown i.homepage ln ++ ln []

/-- view.rs:99-107 -/
def deprecation (i : Info V) : Str :=
  shown i.deprecated fun d => match d with
    | some msg => ln (ln ("DEPRECATED ".toList ++ msg))
    | none => ln (ln "DEPRECATED".toList)

/-- `join(", ")` -/
def commas (l : List Str) : Str := List.intercalate [',', ' '] l

/-- view.rs:109-119 -/
def keywords (i : Info V) : Str :=
  if i.keywords.isEmpty then [] else ln (ln ("keywords: ".toList ++ commas i.keywords))

/-- view.rs:123-134: the names of the commands -/
def binNames (i : Info V) : Bins.Bin → List Str
  | .str _ => [i.manifest.name.getD []]
  | .hash m => (E.ord m).map Prod.fst
  | .array l => l.filterMap RPath.fileName

/-- view.rs:121-142 -/
def bins (i : Info V) : Str := shown i.bin fun b => ln (ln ("bins: ".toList ++ commas (binNames E i b)))

/-- view.rs:144-165 -/
def distribution (i : Info V) : Str :=
  ln "dist".toList ++ shown i.dist.tarball (fun t => ln (".tarball: ".toList ++ t)) ++
    shown i.dist.shasum (fun t => ln (".shasum: ".toList ++ t)) ++
    shown i.dist.integrity (fun t => ln (".integrity: ".toList ++ t)) ++
    shown i.unpacked (fun n => ln (".unpackedSize: ".toList ++ E.human n)) ++ ln []

/-- view.rs:170 -/
def maxDeps : Nat := 25

/-- view.rs:176-181: the cells of the table of dependencies -/
def cells (deps : IMap Str Str) : List Str :=
  ((sortBy (fun a b => strLe a.1 b.1) deps).take maxDeps).map fun d => d.1 ++ ": ".toList ++ d.2

/-- view.rs:167-190 -/
def dependencies (deps : IMap Str Str) : Str :=
  if deps.isEmpty then []
  else shown (E.fit (cells deps) E.width) (fun out => "dependencies:\n".toList ++ out ++
      if deps.length > maxDeps then ln ("(...and ".toList ++ num (deps.length - maxDeps) ++ " more)".toList) else []) ++ ln []

/-- view.rs:196-213: one maintainer -/
def person : Person → Str
  | .str s => ln ("- ".toList ++ s)
  | .obj name email url => ln (['-'] ++ shown name (fun n => ' ' :: n) ++ shown email (fun e => " <".toList ++ e ++ ['>']) ++
      shown url (fun u => " (".toList ++ u ++ [')']))

/-- view.rs:192-215 -/
def maintainers (i : Info V) : Str :=
  if i.maintainers.isEmpty then [] else ln "maintainers:".toList ++ i.maintainers.flatMap person ++ ln []

/-- view.rs:217-245; `none`: the date can not be read -/
def published (i : Info V) (time : IMap Str Str) : Option Str :=
  match time.get? (versionText E i), i.user with
  | some t, some u => (E.age t).map fun ago =>
      ln ("published ".toList ++ ago ++ " by ".toList ++ u.1 ++ shown u.2 fun e => " <".toList ++ e ++ ['>'])
  | _, _ => some []

/-- view.rs:64-215: all but the last line -/
def body (i : Info V) (releases : Nat) : Str :=
  header E i releases ++ about i ++ deprecation i ++ keywords i ++ bins E i ++ distribution E i ++
    dependencies E i.manifest.dependencies ++ maintainers i

/-- view.rs:47-247: what is printed for a version, and whether the command succeeds; npm.rs:79-91 for the lookup -/
def view [DecidableEq V] (doc : Doc V) (wanted : V) : Str × Bool :=
  match doc.versions.get? wanted with
  | none => ([], false)
  | some i => match published E i doc.time with
    | some p => (body E i doc.versions.length ++ p, true)
    | none => (body E i doc.versions.length, false)

/-- view.rs:29-32, 47-247: the command, given what the registry answers -/
def command [DecidableEq V] (parseV : Str → Option V) (url : Str → Option Str) (size : Json → Option Nat) (answer : Json) (wanted : V) :
    Str × Bool :=
  match readDoc parseV url size answer with
  | some d => view E d wanted
  | none => ([], false)

end
end View
end Oro
