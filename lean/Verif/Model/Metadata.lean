import Verif.Base.IMap
import Verif.Base.Str
/-
Model of /repo/crates/oro-common/src/packument.rs:15-275 and manifest.rs:11-245 (reduced and full metadata and the
conversions between them) and of /repo/crates/nassun/src/fetch/dir.rs:151-238 (metadata of a package in a folder).

`V`: versions, `B`: bundled dependencies, `D`: deprecation notes. The fields that exist only in the full forms are one
record each (`M` for manifests, `X` for version metadata, `T` for dist, `Y` for packuments), with a default value. Hash
maps are association lists in arbitrary order. (De)serialisation is not modelled.
-/

set_option linter.unusedSectionVars false

namespace Oro
namespace Meta

/-- manifest.rs:11-28 `CorgiManifest` -/
structure CManifest (V B : Type) where
  name : Option Str
  version : Option V
  dependencies : IMap Str Str
  devDependencies : IMap Str Str
  optionalDependencies : IMap Str Str
  peerDependencies : IMap Str Str
  bundled : Option B

/-- manifest.rs:30-198 `Manifest` -/
structure Manifest (V B M : Type) where
  name : Option Str
  version : Option V
  dependencies : IMap Str Str
  devDependencies : IMap Str Str
  optionalDependencies : IMap Str Str
  peerDependencies : IMap Str Str
  bundled : Option B
  more : M

/-- packument.rs:213-221 `CorgiDist` -/
structure CDist where
  shasum : Option Str
  tarball : Option Str
  integrity : Option Str
  signature : Option Str

/-- packument.rs:223-238 `Dist` -/
structure Dist (T : Type) where
  shasum : Option Str
  tarball : Option Str
  integrity : Option Str
  signature : Option Str
  more : T

/-- packument.rs:69-83 `CorgiVersionMetadata` -/
structure CVersion (V B D : Type) where
  dist : CDist
  hasShrinkwrap : Option Bool
  manifest : CManifest V B
  deprecated : Option D

/-- packument.rs:85-105 `VersionMetadata` -/
structure Version (V B D M X T : Type) where
  dist : Dist T
  hasShrinkwrap : Option Bool
  manifest : Manifest V B M
  deprecated : Option D
  more : X

/-- packument.rs:15-21 `CorgiPackument` -/
structure CPackument (V B D : Type) where
  versions : IMap V (CVersion V B D)
  tags : IMap Str V

/-- packument.rs:24-35 `Packument` -/
structure Packument (V B D M X T Y : Type) where
  versions : IMap V (Version V B D M X T)
  tags : IMap Str V
  more : Y

variable {V B D M X T Y : Type} [Inhabited M] [Inhabited X] [Inhabited T] [Inhabited Y] [DecidableEq V]

/-- manifest.rs:200-213 -/
def CManifest.full (m : CManifest V B) : Manifest V B M :=
  ⟨m.name, m.version, m.dependencies, m.devDependencies, m.optionalDependencies, m.peerDependencies, m.bundled, default⟩

/-- manifest.rs:215-227 -/
def Manifest.corgi (m : Manifest V B M) : CManifest V B :=
  ⟨m.name, m.version, m.dependencies, m.devDependencies, m.optionalDependencies, m.peerDependencies, m.bundled⟩

/-- packument.rs:240-250 -/
def CDist.full (d : CDist) : Dist T := ⟨d.shasum, d.tarball, d.integrity, d.signature, default⟩

/-- packument.rs:252-261 -/
def Dist.corgi (d : Dist T) : CDist := ⟨d.shasum, d.tarball, d.integrity, d.signature⟩

/-- packument.rs:107-116: `deprecated` is not passed on -/
def CVersion.full (v : CVersion V B D) : Version V B D M X T := ⟨v.dist.full, v.hasShrinkwrap, v.manifest.full, none, default⟩

/-- packument.rs:118-127 -/
def Version.corgi (v : Version V B D M X T) : CVersion V B D := ⟨v.dist.corgi, v.hasShrinkwrap, v.manifest.corgi, v.deprecated⟩

/-- packument.rs:37-49 -/
def CPackument.full (p : CPackument V B D) : Packument V B D M X T Y :=
  ⟨p.versions.map fun e => (e.1, e.2.full), p.tags, default⟩

/-- packument.rs:51-62 -/
def Packument.corgi (p : Packument V B D M X T Y) : CPackument V B D :=
  ⟨p.versions.map fun e => (e.1, e.2.corgi), p.tags⟩

/-! ### packages in folders -/

/-- "latest" -/
def latest : Str := ['l', 'a', 't', 'e', 's', 't']

/-- dir.rs:158-180 `into_corgi_metadata`; `none`: no name. `folder`: the folder's name; `zero`: the version 0.0.0 -/
def CManifest.dirMetadata (zero : V) (folder : Option Str) (m : CManifest V B) : Option (CVersion V B D) :=
  (m.name.or folder).map fun n => ⟨⟨none, none, none, none⟩, none, { m with name := some n, version := some (m.version.getD zero) }, none⟩

/-- dir.rs:182-201 `into_metadata` -/
def Manifest.dirMetadata (zero : V) (folder : Option Str) (m : Manifest V B M) : Option (Version V B D M X T) :=
  (m.name.or folder).map fun n =>
    ⟨⟨none, none, none, none, default⟩, none, { m with name := some n, version := some (m.version.getD zero) }, none, default⟩

/-- dir.rs:203-218 `into_corgi_packument` -/
def CManifest.dirPackument (zero : V) (folder : Option Str) (m : CManifest V B) : Option (CPackument V B D) :=
  (m.dirMetadata zero folder).map fun md =>
    let v := md.manifest.version.getD zero
    ⟨[(v, md)], [(latest, v)]⟩

/-- dir.rs:220-237 `into_packument` -/
def Manifest.dirPackument (zero : V) (folder : Option Str) (m : Manifest V B M) : Option (Packument V B D M X T Y) :=
  (m.dirMetadata zero folder).map fun md =>
    let v := md.manifest.version.getD zero
    ⟨[(v, md)], [(latest, v)], default⟩

end Meta
end Oro
