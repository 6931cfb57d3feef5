import Verif.Model.Stack
import Verif.Spec.Documents
import Verif.Spec.Fetch
import Verif.Spec.LockPackage
import Verif.Spec.Resolver
/-
Vocabulary for C88: from the registry's documents to the lockfile. What documents say (`PackumentAs`) is in Spec/Documents.lean, which
version a request chooses (`Chooses`, `Checksum`) in Spec/Nassun.lean, how requests are written (`NameText`, `ReqText`) in Spec/Forms.lean.
-/

set_option linter.unusedSectionVars false

namespace Oro
namespace Stack
open PSpec Nassun
open Meta (CManifest CDist CVersion CPackument)
open Docs (Bundled Deprecation)

variable {V R U I : Type} [DecidableEq V]

/-- The requirement `"n": "text"` of a package.json asks the registry for the package `m` (in the scope `sc`), as `q` says:
`"n": "^1.0"`, or `"n": "npm:m@^1.0"`, or `"n": "npm:m"`. -/
inductive Asks (E : SpecEnv V R U) (n : Str) : Str → Option Str → Str → Option (VersionSpec V R) → Prop
  | own {text : Str} {sc : Option Str} {q : VersionSpec V R} : NameText sc n → ReqText E text q → Asks E n text sc n (some q)
  | other {t m : Str} {sn sc : Option Str} {q : Option (VersionSpec V R)} : NameText sn n → RegistryText E t (.npm sc m q) →
      Asks E n (['n','p','m',':'] ++ t) sc m q

/-- The registry's document about the package `n` (in the scope `sc`) says `p`. -/
def Knows (k : Sys V R U I) (sc : Option Str) (n : Str) (p : CPackument V Bundled Deprecation) : Prop :=
  ∃ doc, k.answer sc n = some doc ∧ Docs.PackumentAs k.base.spec.parseV k.url doc p

/-- What the registry offers for a request: by its document about the package, `q` chooses the version `x`, whose entry is `cv`. -/
def Offers (k : Sys V R U I) (sc : Option Str) (n : Str) (q : Option (VersionSpec V R)) (x : V)
    (cv : CVersion V Bundled Deprecation) : Prop :=
  ∃ p, Knows k sc n p ∧ Chooses k.base.world (packumentOf p) k.base.defaultTag q x ∧ p.versions.get? x = some cv

/-- The package required as `n` is sought in the registry, as `m` in the scope `sc`, as `q` says: the project requires it, or a package
that the registry offers for what is sought. -/
inductive Sought (k : Sys V R U I) (man : Manifest Str) : Str → Option Str → Str → Option (VersionSpec V R) → Prop
  | project {n text m : Str} {sc : Option Str} {q : Option (VersionSpec V R)} :
      (n, text) ∈ man.deps ++ man.optDeps ++ man.devDeps → Asks k.base.spec n text sc m q → Sought k man n sc m q
  | package {n0 m0 n text m : Str} {sc0 sc : Option Str} {q0 q : Option (VersionSpec V R)} {x : V} {cv : CVersion V Bundled Deprecation} :
      Sought k man n0 sc0 m0 q0 → Offers k sc0 m0 q0 x cv →
      (n, text) ∈ cv.manifest.dependencies ++ cv.manifest.optionalDependencies → Asks k.base.spec n text sc m q → Sought k man n sc m q

/-- What is required of the project and of the documents: all requirements ask for registry packages, and the entry of a version says
that it is that version. -/
structure Usual (k : Sys V R U I) (man : Manifest Str) : Prop where
  project : ∀ d ∈ man.deps ++ man.optDeps ++ man.devDeps, ∃ sc m q, Asks k.base.spec d.1 d.2 sc m q
  packages : ∀ n sc m q x cv, Sought k man n sc m q → Offers k sc m q x cv →
    ∀ d ∈ cv.manifest.dependencies ++ cv.manifest.optionalDependencies, ∃ sc' m' q', Asks k.base.spec d.1 d.2 sc' m' q'
  versions : ∀ n sc m q x cv, Sought k man n sc m q → Offers k sc m q x cv → cv.manifest.version = some x

/-- The package `r` is the version `x` that the registry lists with the entry `cv`, installed as `n`: it is fetched from the address
and checked by the checksum given there. -/
def IsListed (k : Sys V R U I) (n : Str) (x : V) (cv : CVersion V Bundled Deprecation) (r : Resolution V R U I) : Prop :=
  ∃ t i, r = .npm n x t i ∧ cv.dist.tarball = some t ∧ Checksum k.base.world (versionMeta cv) i

/-- The version `x` is one that `q` allows. -/
def Allows (k : Sys V R U I) : Option (VersionSpec V R) → V → Prop
  | some (.version v), x => x = v
  | some (.range r), x => k.base.world.sat r x = true
  | _, _ => False

/-- The specifier `spec` asks the registry for the package `m` (in the scope `sc`), as `q` says, to be installed as `n`. -/
def AskSpec (n : Str) (sc : Option Str) (m : Str) (q : Option (VersionSpec V R)) (spec : PackageSpec V R U) : Prop :=
  (spec = .npm sc m q ∧ m = n) ∨ spec = .alias n (.npm sc m q)

/-- A requirement of the package number `i`, to have `m` (in the scope `sc`) as `n`, as `q` says, is met in the tree `g`: it is linked to
a package named `n` that the registry lists as a version of `m` – one that `q` allows, or the very one that the documents choose for `q`. -/
def Met (k : Sys V R U I) (man : Manifest Str) (g : Graph Str (Resolution V R U I) (PackageSpec V R U)) (i : Nat) (n : Str)
    (sc : Option Str) (m : Str) (q : Option (VersionSpec V R)) : Prop :=
  ∃ e jn q' x cv, Linked g i n e ∧ g.nodes[e.dst]? = some jn ∧ jn.name = n ∧ Sought k man n sc m q' ∧ Offers k sc m q' x cv ∧
    IsListed k n x cv jn.pkg ∧ (Allows k q x ∨ Offers k sc m q x cv)

/-- Each name stands for one package throughout. -/
def OneName (k : Sys V R U I) (man : Manifest Str) : Prop :=
  ∀ n sc m q sc' m' q', Sought k man n sc m q → Sought k man n sc' m' q' → sc = sc' ∧ m = m'

/-- What is written into the lockfile can be read again: what is sought is a version or a range (other than `*`) that prints to itself,
and what is offered has a version that prints to itself and an address that starts with `http` and prints to itself. -/
structure Plain (k : Sys V R U I) (man : Manifest Str) : Prop where
  requests : ∀ n sc m q, Sought k man n sc m q → (∃ v, q = some (.version v) ∧ ReqText k.base.spec (k.base.spec.showV v) (.version v)) ∨
    ∃ r, q = some (.range r) ∧ k.base.world.isStar r = false ∧ ReqText k.base.spec (k.base.spec.showR r) (.range r)
  versions : ∀ n sc m q x cv, Sought k man n sc m q → Offers k sc m q x cv → ReqText k.base.spec (k.base.spec.showV x) (.version x)
  addresses : ∀ n sc m q x cv t, Sought k man n sc m q → Offers k sc m q x cv → cv.dist.tarball = some t →
    ['h','t','t','p'] <+: t ∧ ∃ u, k.base.spec.parseU t = some u ∧ k.base.spec.showU u = t

/-- What a section of the lockfile says about the requirements in a manifest: each is listed under its kind, in its normal spelling. -/
def Lists (k : Sys V R U I) (mm : Manifest Str) (isRoot : Bool) (ln : LNode V I) : Prop :=
  ∀ ty n raw, (ln.section ty).get? n = some raw ↔ ∃ text spec, Requires mm isRoot n text ty ∧
    PSpec.parse k.base.spec (n ++ '@' :: text) = .ok spec ∧ raw = PackageSpec.requested k.base.spec spec

/-- All that is sought can be had: the registry has something to offer for it, with an address and a checksum that can be read (or none). -/
def Available (k : Sys V R U I) (man : Manifest Str) : Prop :=
  ∀ n sc m q, Sought k man n sc m q → ∃ x cv t i, Offers k sc m q x cv ∧ cv.dist.tarball = some t ∧ Checksum k.base.world (versionMeta cv) i

/-- The same surroundings later on: the registry may say something else, and `--concurrency` may be another. -/
def Sys.later (k : Sys V R U I) (answer : Option Str → Str → Option Json) (concurrency : Nat) : Sys V R U I :=
  { k with answer := answer, concurrency := concurrency }

end Stack
end Oro
