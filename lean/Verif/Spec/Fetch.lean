import Verif.Model.Fetch
import Verif.Spec.Forms
import Verif.Spec.Nassun
/- Specification vocabulary for resolving and fetching packages in directories and git repositories. -/

set_option linter.unusedSectionVars false

namespace Oro
namespace Fetch
open PSpec Nassun
variable {V R U I : Type}

/-- the files of a repository at what was asked for: a commit (or branch, or tag); the highest tag that is a version in
a range; or else the default branch -/
inductive Checkout (e : FetchEnv V R U I) (r : Repo) : Option Str → Option R → Files → Prop
  | commit {c : Str} {fs : Files} : r.checkout c = some fs → Checkout e r (some c) none fs
  | default : Checkout e r none none r.head
  | semver {c : Option Str} {range : R} {t : Str} {v : V} {fs : Files} : t ∈ r.tags → e.spec.parseV t = some v →
      e.world.sat range v = true →
      (∀ t' ∈ r.tags, ∀ v', e.spec.parseV t' = some v' → e.world.sat range v' = true → e.world.le v' v = true) →
      r.checkout t = some fs → Checkout e r c (some range) fs

/-- The package in a folder called `folder` with the files `fs` has this name and version: those in its package.json, or
else the folder's name and 0.0.0. -/
def PackageAt (e : FetchEnv V R U I) (fs : Files) (folder : Option Str) (name : Str) (v : V) : Prop :=
  ∃ text m, readFile fs [kPkgJson] = some text ∧ e.json text = some m ∧
    (m.name = some name ∨ m.name = none ∧ folder = some name) ∧
    (m.version = some v ∨ m.version = none ∧ v = e.world.zero)

/-- the packument of a package with a single version that has no tarball -/
def single (v : V) : Packument V :=
  { versions := [(v, { version := some v, tarball := none, integrity := none, shasum := none })],
    tags := [(['l','a','t','e','s','t'], v)] }

/-- git specifiers that give an address, and that address -/
inductive HasAddress (e : FetchEnv V R U I) : GitInfo R U → Str → Option Str → Option R → Prop
  | url {u : U} {c : Option Str} {s : Option R} : HasAddress e (.url u c s) (e.spec.showU u) c s
  | ssh {t : Str} {c : Option Str} {s : Option R} : HasAddress e (.ssh t c s) t c s
  | hosted {o r q : Str} {h : GitHost} {c : Option Str} {s : Option R} : HasAddress e (.hosted o r h c s (some q)) q c s

end Fetch
end Oro
