import Verif.Model.PackageSpec
import Verif.Base.IMap
/-
Model of /repo/crates/nassun/src/resolver.rs: choosing a version for a specifier, and testing whether a resolved
package satisfies a specifier.
-/

set_option linter.unusedSectionVars false

namespace Oro
namespace Nassun
open PSpec

variable {V R U I : Type}

/-- The external libraries: node_semver (order and range membership), `Path::canonicalize`, ssri's parser. -/
structure World (V R I : Type) where
  /-- `Version: Ord` -/
  le : V → V → Bool
  /-- `Range::satisfies` -/
  sat : R → V → Bool
  /-- `range == &Range::any() || range == &Range::parse("*")` -/
  isStar : R → Bool
  /-- the version 0.0.0 -/
  zero : V
  /-- `Path::canonicalize` relative to the process's working directory; `none` is an I/O error -/
  canonicalize : Str → Option Str
  /-- `base_dir.join(path)` -/
  join : Str → Str → Str
  /-- `Integrity::from_str` -/
  parseI : Str → Option I

/-- packument.rs:69-83, 214-222: the fields of `CorgiVersionMetadata` used here -/
structure VersionMeta (V : Type) where
  version : Option V
  tarball : Option Str
  integrity : Option Str
  shasum : Option Str

/-- packument.rs:15-21 `CorgiPackument` (hash maps as association lists in arbitrary order) -/
structure Packument (V : Type) where
  versions : IMap V (VersionMeta V)
  tags : IMap Str V

/-- resolver.rs:15-30 `PackageResolution` -/
inductive Resolution (V R U I : Type) where
  | npm (name : Str) (version : V) (tarball : Str) (integrity : Option I)
  | dir (name : Str) (path : Str)
  | git (name : Str) (info : GitInfo R U)
  deriving DecidableEq

inductive NErr where
  | noVersion | noTarball | io | badIntegrity | invalidSpec
  deriving DecidableEq, Repr

/-- resolver.rs:65-88 `PackageResolution::satisfies`; `none` is the I/O error -/
def Resolution.satisfies [DecidableEq V] (w : World V R I) (r : Resolution V R U I) (spec : PackageSpec V R U) :
    Option Bool :=
  match r, spec.target with
  | .npm _ v _ _, .npm _ _ req =>
    match req with
    | some (.version x) => some (v = x)
    | some (.range x) => some (w.sat x v)
    | some (.tag _) => some false
    | none => some false
  | .dir _ p, .dir q => (w.canonicalize q).map fun c => decide (p = c)
  | .git _ _, .git _ => some false
  | _, _ => some false

/-- resolver.rs:279-284 `max_satisfying`: `Iterator::max` keeps the later of equal elements -/
def maxBy (le : V → V → Bool) : List V → Option V
  | [] => none
  | x :: l => some (l.foldl (fun m y => if le m y then y else m) x)

/-- resolver.rs:279-284 `max_satisfying` -/
def maxSatisfying (w : World V R I) (vs : List V) (r : R) : Option V := maxBy w.le (vs.filter (w.sat r))

/-- resolver.rs:170-186: the version asked for directly -/
def directTarget (p : Packument V) : Option (VersionSpec V R) → Option V
  | some (.version v) => some v
  | some (.tag t) => p.tags.get? t
  | some (.range _) => none
  | none => none

/-- resolver.rs:190-212: whether the default tag's version is taken -/
def takesDefault (w : World V R I) (v : V) : Option (VersionSpec V R) → Bool
  | none => true
  | some (.range r) => w.sat r v
  | _ => false

/-- resolver.rs:170-240: the chosen version -/
def chooseTarget [DecidableEq V] (w : World V R I) (p : Packument V) (defaultTag : Str)
    (req : Option (VersionSpec V R)) : Option V :=
  let tagVersion := p.tags.get? defaultTag
  let target := directTarget p req
  -- lines 190-212
  let target := match target, tagVersion with
    | none, some v => if p.versions.contains v && takesDefault w v req then some v else none
    | t, _ => t
  -- lines 214-222
  let target := match target, req with
    | none, some (.range r) => maxSatisfying w p.versions.keys r
    | t, _ => t
  -- lines 224-234
  match target, req with
    | none, some (.range r) => if w.isStar r then tagVersion else none
    | t, _ => t

/-- resolver.rs:257-271: the integrity of the chosen version -/
def integrityOf (w : World V R I) (e : VersionMeta V) : Except NErr (Option I) :=
  match e.integrity with
  | some i => match w.parseI i with
    | some x => .ok (some x)
    | none => .error .badIntegrity
  | none => match e.shasum with
    | some s => match w.parseI ("sha1-".toList ++ s) with
      | some x => .ok (some x)
      | none => .error .badIntegrity
    | none => .ok none

/-- resolver.rs:142-277 `get_resolution` -/
def getResolution [DecidableEq V] (w : World V R I) (baseDir defaultTag name : Str) (wanted : PackageSpec V R U)
    (p : Packument V) : Except NErr (Resolution V R U I) :=
  match wanted.target with
  | .dir path => match w.canonicalize (w.join baseDir path) with
    | some c => .ok (.dir name c)
    | none => .error .io
  | .git i => .ok (.git name i)
  | .alias _ _ => if p.versions.isEmpty then .error .noVersion else .error .invalidSpec
  | .npm _ _ req =>
    if p.versions.isEmpty then .error .noVersion else
    match (chooseTarget w p defaultTag req).bind p.versions.get? with
    | none => .error .noVersion
    | some e => match e.tarball with
      | none => .error .noTarball
      | some t => match integrityOf w e with
        | .error x => .error x
        | .ok i => .ok (.npm name (e.version.getD w.zero) t i)

end Nassun
end Oro
