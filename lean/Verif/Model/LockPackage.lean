import Verif.Model.Lockfile
import Verif.Model.Nassun
/-
Model of /repo/crates/node-maintainer/src/lockfile.rs:160-220 (`LockfileNode::to_package`): the package a lockfile entry
stands for.
-/

set_option linter.unusedSectionVars false

namespace Oro
open PSpec Nassun
variable {V R U I : Type}

/-- gitinfo.rs:82-89 `GitInfo::committish` -/
def PSpec.GitInfo.committish : GitInfo R U → Option Str
  | .hosted _ _ _ c _ _ => c
  | .url _ c _ => c
  | .ssh _ c _ => c

/-- What `to_package` ends in. -/
inductive LockPkg (V R U I : Type) where
  /-- `Ok(None)`: the entry says nothing -/
  | nothing
  /-- `nassun.resolve_from(name, from, resolution)`: a package, without asking anyone -/
  | package (name : Str) («from» : PackageSpec V R U) (resolved : Resolution V R U I)
  /-- `nassun.resolve(text)`: ask again -/
  | ask (text : Str)
  /-- the text made from the entry is no specifier -/
  | badSpec
  /-- `MissingVersion` -/
  | noVersion
  /-- `UrlParseError` -/
  | badUrl
  /-- a crash of the specifier parser, or `unreachable!` -/
  | panic

/-- lockfile.rs:164-176: the specifier text made from the entry -/
def LNode.specText (E : SpecEnv V R U) (n : LNode V I) : Option Str :=
  match n.resolved, n.version with
  | some r, some v =>
    if ['h','t','t','p'].isPrefixOf r then some (n.name ++ '@' :: E.showV v) else some (n.name ++ '@' :: r)
  | some r, none => some (n.name ++ '@' :: r)
  | none, some v => some (n.name ++ '@' :: E.showV v)
  | none, none => none

/-- lockfile.rs:178-218: the package for the parsed specifier.  The tarball address is kept as its printed text. -/
def LNode.ofSpec (E : SpecEnv V R U) (n : LNode V I) (spec : PackageSpec V R U) : LockPkg V R U I :=
  match spec.target with
  | .dir p => .package n.name spec (.dir n.name p)
  | .npm _ name _ =>
    match n.version with
    | none => .noVersion
    | some v =>
      match n.resolved with
      | none => .ask (spec.show E)
      | some url => match E.parseU url with
        | none => .badUrl
        | some u => .package n.name spec (.npm name v (E.showU u) n.integrity)
  | .git i => if i.committish.isSome then .package n.name spec (.git n.name i) else .ask (spec.show E)
  | .alias _ _ => .panic

/-- lockfile.rs:160-220 `to_package` -/
def LNode.toPackage (E : SpecEnv V R U) (n : LNode V I) : LockPkg V R U I :=
  match n.specText E with
  | none => .nothing
  | some t => match parse E t with
    | .ok spec => n.ofSpec E spec
    | .error => .badSpec
    | .panic => .panic

/-- graph.rs:370-377 with `Display`: how a resolution is written into a lockfile entry -/
def Nassun.Resolution.recorded (E : SpecEnv V R U) : Resolution V R U I → Resolved V I
  | .npm _ v t i => .npm v t i
  | .dir _ p => .dir p
  | .git _ i => .git (i.show E)

end Oro
