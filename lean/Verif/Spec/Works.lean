import Verif.Spec.Resolver
import Verif.Spec.Hoisted
import Verif.Spec.Isolated
/-
Vocabulary for C80: what is on disk after an install, seen by Node. `Iso.finds` (Spec/Isolated.lean) is Node's lookup.
-/

set_option linter.unusedSectionVars false

namespace Oro
namespace Works
open Hoisted (Entry Tree Pkgs binName storeName metaName)

variable {P S : Type}

/-- The folder `q` holds the package `x`: exactly its files and folders, those of nested `node_modules` folders apart. -/
def HoldsPackage (pk : Pkgs P) (t : Tree) (q : Loc) (x : P) : Prop :=
  t q = some .dir ∧ ∀ r, nmWord ∉ r → t (q ++ r) = pk.content x r

/-- The package `x` is what `spec` asks for: it satisfies it, or it is the registry's answer to it. -/
def Meets (env : Env Str P S) (x : P) (spec : S) : Prop := env.sat x spec = true ∨ ∃ mx, env.fetch spec = some (x, mx)

/-- The project, whose manifest is `m`, works with the node_modules folder `t`: wherever one gets from the project by following
requirements, each requirement finds a folder that holds a package which is what it asks for; and so on from that folder, with
the requirements in that package's manifest. -/
def ProjectWorks (env : Env Str P S) (lock : Option (LockTree Str P)) (pk : Pkgs P) (v : Iso.Env) (t : Tree) (m : Manifest Str) : Prop :=
  ∃ Visited : Loc → Manifest Str → Prop, Visited [] m ∧
    ∀ p mp, Visited p mp → ∀ n raw ty, Requires mp (decide (p = [])) n raw ty →
      ∃ spec q x mx, env.parse n raw = some spec ∧ Iso.finds v t p n = some q ∧ q ≠ [] ∧ HoldsPackage pk t q x ∧
        Meets env x spec ∧ KnownPackage env lock x mx ∧ Visited q mx

/-- a name under which a package can be installed: one that can be a folder's, and is none of those used by orogene and Node -/
def PlainName (n : Str) : Prop :=
  FolderName n ∧ n ≠ binName ∧ n ≠ storeName ∧ n ≠ metaName ∧ (∀ s, n ≠ '@' :: s ++ '/' :: nmWord) ∧ Iso.dotdot ∉ nameSegs n

/-- What is required of the project and of the packages that are known: plain names, no section with a name twice (they are
read from JSON objects), and packages without a `node_modules` folder of their own. -/
structure Plain (env : Env Str P S) (lock : Option (LockTree Str P)) (m : Manifest Str) (pk : Pkgs P) : Prop where
  project : m.Proper ∧ ∀ n raw ty, Requires m true n raw ty → PlainName n
  packages : ∀ x mx, KnownPackage env lock x mx → mx.Proper ∧ (∀ n raw ty, Requires mx false n raw ty → PlainName n) ∧
    pk.content x [] = some .dir ∧ ∀ r, pk.content x (nmWord :: r) = none

/-- For the isolated linker: the packages have no symbolic links, and what is in them is in folders; node_modules is at an
absolute path; and the digits used for folder names tell the packages of the tree apart. -/
structure PlainStore (env : Env Str P S) (lock : Option (LockTree Str P)) (pk : Pkgs P) (v : Iso.Env) (g : Graph Str P S) : Prop where
  noLinks : ∀ x mx r text, KnownPackage env lock x mx → pk.content x r ≠ some (.link text)
  folders : ∀ x mx a b, KnownPackage env lock x mx → b ≠ [] → pk.content x (a ++ b) ≠ none → pk.content x a = some .dir
  absolute : v.top.head? = some ['/']
  digits : ∀ s, (v.hash s).length = 8 ∧ '/' ∉ v.hash s ∧ '@' ∉ v.hash s
  apart : ∀ i j π ρ, π ≠ [] → ρ ≠ [] → LocatedAt g i π → LocatedAt g j ρ → v.hash (joinPath π) = v.hash (joinPath ρ) → i = j

end Works
end Oro
