import Verif.Model.Resolver
import Verif.Model.Nassun
/-
The resolver's environment with names as they are spelled. The resolver compares names without regard to case
(`UniCase`, /repo/crates/node-maintainer/src/graph.rs:39-53, lockfile.rs:18), but asks the registry for them as they are
spelled (graph.rs:88-91: the specifier is parsed from the spelled name). `fold` is Unicode case folding (crate `unicase`).
-/

set_option linter.unusedSectionVars false

namespace Oro
namespace Spelled
open PSpec Nassun

/-- the dependency sections of oro-common/src/manifest.rs:11-28 `CorgiManifest`, as they are spelled -/
structure RawManifest where
  deps : List (Str × Str) := []
  optDeps : List (Str × Str) := []
  devDeps : List (Str × Str) := []

/-- graph.rs:86-92: the key `UniCase::new(name)` and the text `format!("{name}@{spec}")` of an entry -/
def entry (fold : Str → Str) (d : Str × Str) : Str × Str := (fold d.1, d.1 ++ '@' :: d.2)

/-- graph.rs:64-92: the sections as the resolver sees them -/
def RawManifest.folded (fold : Str → Str) (m : RawManifest) : Manifest Str :=
  ⟨m.deps.map (entry fold), m.optDeps.map (entry fold), m.devDeps.map (entry fold)⟩

/-- nassun/src/package.rs:24-33 `Package`: what was asked for (`from`) and what it resolved to -/
structure Pkg (V R U I : Type) where
  asked : PackageSpec V R U
  resolved : Resolution V R U I
  deriving DecidableEq

variable {V R U I : Type} [DecidableEq V]

/-- resolver.rs:52-276: the environment of the resolver, made of the specifier parser, the satisfaction test
(nassun/src/resolver.rs:65-88; its I/O error is left out, see `Env.sat`) and the registry `look` -/
def spelledEnv (fold : Str → Str) (w : World V R I) (E : SpecEnv V R U)
    (look : PackageSpec V R U → Option (Resolution V R U I × RawManifest)) (nameLe : Pkg V R U I → Pkg V R U I → Bool)
    (concurrency : Nat) : Env Str (Pkg V R U I) (PackageSpec V R U) where
  parse _ text := match PSpec.parse E text with
    | .ok a => some a
    | _ => none
  sat p spec := p.resolved.satisfies w spec == some true
  fetch spec := (look spec).map fun r => (⟨spec, r.1⟩, r.2.folded fold)
  nameLe := nameLe
  concurrency := concurrency

/-- oro-package-spec/src/lib.rs:27-42: the name of the registry package a specifier is for, if it is for one -/
def registryName (spec : PackageSpec V R U) : Option Str :=
  match spec.target with
  | .npm _ n _ => some n
  | _ => none

end Spelled
end Oro
