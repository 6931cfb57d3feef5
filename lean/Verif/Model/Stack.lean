import Verif.Model.Fetch
import Verif.Model.Documents
import Verif.Model.Resolver
/-
The resolver (/repo/crates/node-maintainer/src/resolver.rs) on top of the real reader of specifiers (oro-package-spec), the real
choice of versions (nassun/src/resolver.rs) and the real reader of the registry's documents (oro-common): everything between the
JSON texts that come from the registry and the lockfile. What is left open: node_semver, `Url`, ssri, git, the file system and
the network, as the fields of `Stack`.

Names are compared as they are spelled (see Model/Spelled.lean for what folding their case changes). Within one resolve
the registry gives one answer per package: nassun/src/fetch/npm.rs:103-117 memoises it (see Model/Npm.lean).
-/

set_option linter.unusedSectionVars false

namespace Oro
namespace Stack
open PSpec Nassun Fetch
open Meta (CManifest CDist CVersion CPackument)
open Docs (Bundled Deprecation)

/-- the surroundings -/
structure Sys (V R U I : Type) where
  /-- specifiers, versions, directories, git; the fields `registry` and `json` of this one are not used -/
  base : FetchEnv V R U I
  /-- oro-client/src/api/packument.rs:26-33: the JSON value the registry answers with for a package; `none`: no answer, or no JSON -/
  answer : Option Str → Str → Option Json
  /-- `Url::deserialize` -/
  url : Str → Option Str
  /-- `serde_json::from_slice` -/
  parseJson : Str → Option Json
  /-- `concurrency` -/
  concurrency : Nat

variable {V R U I : Type} [DecidableEq V]

/-- nassun/src/resolver.rs:242-275: what `get_resolution` looks at in the metadata of a version -/
def versionMeta (x : CVersion V Bundled Deprecation) : VersionMeta V :=
  ⟨x.manifest.version, x.dist.tarball, x.dist.integrity, x.dist.shasum⟩

/-- nassun/src/resolver.rs:142-240: what it looks at in a packument -/
def packumentOf (p : CPackument V Bundled Deprecation) : Packument V :=
  ⟨p.versions.map fun e => (e.1, versionMeta e.2), p.tags⟩

/-- npm.rs:91-119 `corgi_packument` -/
def Sys.corgi (k : Sys V R U I) (sc : Option Str) (n : Str) : Option (CPackument V Bundled Deprecation) :=
  (k.answer sc n).bind (Docs.readPackument k.base.spec.parseV k.url)

/-- dir.rs:30-38 `corgi_manifest`: the package.json among the files of a package -/
def Sys.pkgJson (k : Sys V R U I) (fs : Files) : Option (CManifest V Bundled) :=
  (readFile fs [kPkgJson]).bind fun t => (k.parseJson t).bind (Docs.readPackageJson k.base.spec.parseV)

/-- what is used to resolve specifiers. Simplification: dir.rs:39-46, 95-104 reads the full manifest for the name of a
directory or repository that is asked for without a name; requirements always have one -/
def Sys.nassun (k : Sys V R U I) : FetchEnv V R U I :=
  { k.base with
    registry := fun sc n => (k.corgi sc n).map packumentOf
    json := fun t => ((k.parseJson t).bind (Docs.readPackageJson k.base.spec.parseV)).map fun m => ⟨m.name, m.version⟩ }

/-- npm.rs:66-77, dir.rs:112-118, git.rs:214-225: `corgi_metadata` of a package that was resolved from `from`. An npm package's is
looked up by the *resolved* version in the packument. Errors and crashes alike: `none`. -/
def Sys.corgiMetadata (k : Sys V R U I) («from» : PackageSpec V R U) : Resolution V R U I → Option (CManifest V Bundled)
  | .npm _ v _ _ => match «from».target with
    | .npm sc n _ => (k.corgi sc n).bind fun p => (p.versions.get? v).map (·.manifest)
    | _ => none
  | .dir _ p => k.pkgJson (k.base.dirFiles p)
  | .git _ i => match fetchToTempDir k.nassun i with
    | .ok d => k.pkgJson (packageFiles d)
    | _ => none

/-- graph.rs:64-84: the sections of a manifest that are used -/
def sections (m : CManifest V Bundled) : Oro.Manifest Str :=
  { deps := m.dependencies, optDeps := m.optionalDependencies, devDeps := m.devDependencies }

/-- resolver.rs:95-101, 193-204: `nassun.resolve_spec(spec)`, then `corgi_metadata`; crashes count as errors -/
def Sys.fetch (k : Sys V R U I) (spec : PackageSpec V R U) : Option (Resolution V R U I × Oro.Manifest Str) :=
  match resolveSpec k.nassun spec with
  | .ok r => (k.corgiMetadata spec r.2).map fun m => (r.2, sections m)
  | _ => none

/-- graph.rs:86-92 -/
def Sys.parse (k : Sys V R U I) (name text : Str) : Option (PackageSpec V R U) :=
  match requirement k.base.spec name text with
  | .ok a => some a
  | _ => none

/-- package.rs:67-69 `name`: the name of a package is also that in its resolution (nassun/src/resolver.rs:123-140) -/
def nameOf : Resolution V R U I → Str
  | .npm n _ _ _ => n
  | .dir n _ => n
  | .git n _ => n

/-- the surroundings of the resolver -/
def Sys.env (k : Sys V R U I) : Env Str (Resolution V R U I) (PackageSpec V R U) where
  parse := k.parse
  sat p spec := p.satisfies k.base.world spec == some true
  fetch := k.fetch
  nameLe a b := strLe (nameOf a) (nameOf b)
  concurrency := k.concurrency

/-- graph.rs:366-417: what is written into the lockfile -/
def Sys.view (k : Sys V R U I) : LockView (Resolution V R U I) (PackageSpec V R U) V I where
  pkgName := nameOf
  resolved := Resolution.recorded k.base.spec
  reqStr := PackageSpec.requested k.base.spec

/-- lockfile.rs:160-220 `to_package`; inner `none`: the entry says nothing -/
def Sys.toPackage (k : Sys V R U I) (n : LNode V I) : Option (Option (Resolution V R U I)) :=
  match n.toPackage k.base.spec with
  | .nothing => some none
  | .package _ _ r => some (some r)
  | .ask t => match PSpec.parse k.base.spec t with
    | .ok spec => match resolveSpec k.nassun spec with
      | .ok r => some (some r.2)
      | _ => none
    | _ => none
  | _ => none

end Stack
end Oro
