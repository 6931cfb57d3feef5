import Verif.Spec.Stack
import Verif.Spec.Works
/-
Vocabulary for C90: from the registry's documents to a node_modules folder that works. `Iso.finds` (Spec/Isolated.lean) is Node's lookup;
`Works.HoldsPackage` says what a folder holds.
-/

set_option linter.unusedSectionVars false

namespace Oro
namespace Stack
open PSpec Nassun
open Meta (CManifest CDist CVersion CPackument)
open Docs (Bundled Deprecation)
open Hoisted (Tree Pkgs)

variable {V R U I : Type} [DecidableEq V]

/-- What is required of names and archives: what is sought has plain names, and the archives that the registry lists for it are folders
without a `node_modules` folder of their own. -/
structure Packed (k : Sys V R U I) (man : Manifest Str) (pk : Pkgs (Resolution V R U I)) : Prop where
  names : ∀ n sc m q, Sought k man n sc m q → Works.PlainName n
  folder : ∀ n sc m q x cv r, Sought k man n sc m q → Offers k sc m q x cv → IsListed k n x cv r →
    pk.content r [] = some .dir ∧ ∀ l, pk.content r (nmWord :: l) = none

/-- For the isolated linker: the archives have no symbolic links, and what is in them is in folders; node_modules is at an absolute path; and
the digits used for folder names tell the packages of the tree apart. -/
structure PackedStore (k : Sys V R U I) (man : Manifest Str) (pk : Pkgs (Resolution V R U I)) (v : Iso.Env)
    (g : Graph Str (Resolution V R U I) (PackageSpec V R U)) : Prop where
  noLinks : ∀ n sc m q x cv r l text, Sought k man n sc m q → Offers k sc m q x cv → IsListed k n x cv r → pk.content r l ≠ some (.link text)
  folders : ∀ n sc m q x cv r a b, Sought k man n sc m q → Offers k sc m q x cv → IsListed k n x cv r → b ≠ [] → pk.content r (a ++ b) ≠ none →
    pk.content r a = some .dir
  absolute : v.top.head? = some ['/']
  digits : ∀ s, (v.hash s).length = 8 ∧ '/' ∉ v.hash s ∧ '@' ∉ v.hash s
  apart : ∀ i j π ρ, π ≠ [] → ρ ≠ [] → LocatedAt g i π → LocatedAt g j ρ → v.hash (joinPath π) = v.hash (joinPath ρ) → i = j

/-- The project works with the node_modules folder `t`, by the registry's documents: wherever one gets from the project by following
requirements, each asks the registry for something, and finds a folder that holds the archive of a version that the registry lists for it, and
that it allows or that the documents choose for it; and so on from that folder, with the requirements in that version's entry. -/
def DocumentsWork (k : Sys V R U I) (man : Manifest Str) (pk : Pkgs (Resolution V R U I)) (v : Iso.Env) (t : Tree) : Prop :=
  ∃ Visited : Loc → Manifest Str → Prop, Visited [] man ∧
    ∀ p mp, Visited p mp → ∀ n text ty, Requires mp (decide (p = [])) n text ty →
      (∃ sc m q, Asks k.base.spec n text sc m q) ∧
      ∀ sc m q, Asks k.base.spec n text sc m q → ∃ l q' x cv r, Iso.finds v t p n = some l ∧ l ≠ [] ∧
        Offers k sc m q' x cv ∧ (Allows k q x ∨ Offers k sc m q x cv) ∧ IsListed k n x cv r ∧ Works.HoldsPackage pk t l r ∧
        Visited l (sections cv.manifest)

/-- No package requires itself, directly or through others: versions can be ranked such that what the registry offers for a requirement of a
version ranks lower than that version, and what it offers for a requirement of the project ranks lower than `depth`. No version has more
than `width` requirements. -/
structure NoCycles (k : Sys V R U I) (man : Manifest Str) (rank : Str → V → Nat) (depth width : Nat) : Prop where
  project : ∀ n text sc m q x cv, (n, text) ∈ man.deps ++ man.optDeps ++ man.devDeps → Asks k.base.spec n text sc m q → Offers k sc m q x cv →
    rank n x < depth
  package : ∀ n0 sc0 m0 q0 x0 cv0 n text sc m q x cv, Sought k man n0 sc0 m0 q0 → Offers k sc0 m0 q0 x0 cv0 →
    (n, text) ∈ cv0.manifest.dependencies ++ cv0.manifest.optionalDependencies → Asks k.base.spec n text sc m q → Offers k sc m q x cv →
    rank n x < rank n0 x0
  width : ∀ n sc m q x cv, Sought k man n sc m q → Offers k sc m q x cv →
    cv.manifest.dependencies.length + cv.manifest.optionalDependencies.length ≤ width

end Stack
end Oro
