import Verif.Model.Isolated
import Verif.Spec.AtPath
/-
Vocabulary for C46, C47 and C58.
-/

set_option linter.unusedSectionVars false

namespace Oro
namespace Iso
open Hoisted (Entry Tree Pkgs Disk storeName binName)

variable {P S V I : Type}

/-- A tree that can be installed: a folder tree whose packages have names that can be folder names (and are not the
store's, `.bin` or `..`), each with a folder as content, no symbolic links and no `node_modules` of its own; every dependency of a package is a
package of the tree, and no two of them have the same name; the eight digits tell packages of the same name apart; and
the project is at an absolute path. -/
structure Installable (pk : Pkgs P) (v : Env) (g : Graph Str P S) : Prop where
  tree : FolderTree g
  order : ∀ (i : Nat) (nd : Node Str P S) p, g.nodes[i]? = some nd → nd.parent = some p → p < i
  names : ∀ (i : Nat) (nd : Node Str P S), i ≠ 0 → g.nodes[i]? = some nd → FolderName nd.name ∧ nd.name ≠ storeName
  plain : ∀ (i : Nat) (nd : Node Str P S), i ≠ 0 → g.nodes[i]? = some nd → dotdot ∉ nameSegs nd.name
  folders : ∀ (i : Nat) (nd : Node Str P S) a b, i ≠ 0 → g.nodes[i]? = some nd → b ≠ [] → pk.content nd.pkg (a ++ b) ≠ none →
    pk.content nd.pkg a = some .dir
  dirs : ∀ (i : Nat) (nd : Node Str P S), i ≠ 0 → g.nodes[i]? = some nd → pk.content nd.pkg [] = some .dir
  bundled : ∀ (i : Nat) (nd : Node Str P S) r, i ≠ 0 → g.nodes[i]? = some nd → pk.content nd.pkg (nmWord :: r) = none
  noBin : ∀ (i : Nat) (nd : Node Str P S), i ≠ 0 → g.nodes[i]? = some nd → nd.name ≠ binName
  noLinks : ∀ (i : Nat) (nd : Node Str P S) r text, i ≠ 0 → g.nodes[i]? = some nd → pk.content nd.pkg r ≠ some (.link text)
  known : ∀ e ∈ g.edges, e.dst ≠ 0 ∧ ∃ nd, g.nodes[e.dst]? = some nd
  sources : ∀ e ∈ g.edges, ∃ nd, g.nodes[e.src]? = some nd
  single : ∀ i, ((depsOf g i).map (nameOf g)).Nodup
  absolute : v.top.head? = some ['/']
  digits : ∀ s, (v.hash s).length = 8 ∧ '/' ∉ v.hash s ∧ '@' ∉ v.hash s
  apart : ∀ (i j : Nat) (nd nd' : Node Str P S), i ≠ 0 → j ≠ 0 → g.nodes[i]? = some nd → g.nodes[j]? = some nd' → nd.name = nd'.name →
    v.hash (joinPath (g.nodePath i)) = v.hash (joinPath (g.nodePath j)) → i = j

/-- What should be at path `p` when the tree `g` is installed: node_modules itself; in the store, the content of each
package and the folders leading there; and in each package's own node_modules, exactly one link per dependency, which
leads to that dependency's folder in the store (and folders for scopes). -/
def Expected (pk : Pkgs P) (v : Env) (g : Graph Str P S) (p : Loc) (e : Entry) : Prop :=
  (p = [] ∧ e = .dir) ∨
  (∃ i nd, i ≠ 0 ∧ g.nodes[i]? = some nd ∧
    ((∃ r, p = home v g i ++ r ∧ pk.content nd.pkg r = some e) ∨ (e = .dir ∧ p <+: home v g i))) ∨
  (∃ a ∈ g.edges, (∃ nd, g.nodes[a.src]? = some nd) ∧
    ((p = entryFor v g a.src a.dst ∧ e = .link (diff (home v g a.dst) p.dropLast)) ∨ (e = .dir ∧ p <+: (entryFor v g a.src a.dst).dropLast)))

/-- The path lies in the folder for commands, `.bin`, of the project or of a package in the store. -/
inductive InBin : Loc → Prop
  | project (r : Loc) : InBin (binName :: r)
  | package (a : Loc) (n : Str) (r : Loc) : nmWord ∉ a → n.head? ≠ some '@' → n ≠ nmWord →
      InBin (storeName :: (a ++ nmWord :: n :: nmWord :: binName :: r))
  | scope (a : Loc) (s n : Str) (r : Loc) : nmWord ∉ a → InBin (storeName :: (a ++ nmWord :: ('@' :: s) :: n :: nmWord :: binName :: r))

/-- The tree `g` is installed: exactly what it should be (commands apart). -/
def Installed (pk : Pkgs P) (v : Env) (g : Graph Str P S) (t : Tree) : Prop := ∀ p, ¬ InBin p → ∀ e, t p = some e ↔ Expected pk v g p e

/-- The tree `g` is installed, and there are no commands. -/
def Exact (pk : Pkgs P) (v : Env) (g : Graph Str P S) (t : Tree) : Prop := ∀ p e, t p = some e ↔ Expected pk v g p e

/-- an order in which the packages are done -/
def Order (g : Graph Str P S) (order : List Nat) : Prop := order.Perm (List.range g.nodes.length)

/-- There is nothing to rely on: no readable meta file, and node_modules is a folder or missing. -/
def Fresh (d : Disk V I) : Prop := d.metaFile = none ∧ ((∀ p, d.tree p = none) ∨ d.tree [] = some .dir)

/-! ### changing from one tree to another -/

/-- The changes from tree `g0` to tree `g` that the linker carries out correctly: a package that gets a folder the old tree
used for a package is the same package; a package (or the project) that keeps its folder keeps all its dependencies,
whatever versions; of a scope from which it had a dependency it gets no other dependency, nor a differently placed one;
and for each package of the old tree the new tree has one with the same scope. -/
structure Compatible (pk : Pkgs P) (v : Env) (g0 g : Graph Str P S) : Prop where
  same : ∀ (k i : Nat) (nd nd' : Node Str P S), k ≠ 0 → i ≠ 0 → g0.nodes[k]? = some nd → g.nodes[i]? = some nd' →
    home v g0 k = home v g i → pk.content nd.pkg = pk.content nd'.pkg
  kept : ∀ (k i l : Nat) (nd nd' : Node Str P S), g0.nodes[k]? = some nd → g.nodes[i]? = some nd' → nm v g0 k = nm v g i →
    l ∈ depsOf g0 k → ∃ j ∈ depsOf g i, nameOf g j = nameOf g0 l
  inScope : ∀ (k i l j : Nat) (nd nd' : Node Str P S) (s t t' : Str), g0.nodes[k]? = some nd → g.nodes[i]? = some nd' →
    nm v g0 k = nm v g i → l ∈ depsOf g0 k → j ∈ depsOf g i → nameSegs (nameOf g0 l) = ['@' :: s, t] →
    nameSegs (nameOf g j) = ['@' :: s, t'] →
    ∃ l' ∈ depsOf g0 k, nameOf g0 l' = nameOf g j ∧ home v g0 l' = home v g j
  scopes : ∀ (k : Nat) (nd : Node Str P S), k ≠ 0 → g0.nodes[k]? = some nd → ∃ i nd', i ≠ 0 ∧ g.nodes[i]? = some nd' ∧
    ∀ s t, nameSegs nd.name = ['@' :: s, t] → ∃ t', nameSegs nd'.name = ['@' :: s, t']

/-! ### what a package sees -/

/-- Where an entry leads: a folder, or a link to a folder. -/
def leadsTo (v : Env) (t : Tree) (p : Loc) : Option Loc :=
  match t p with
  | some .dir => some p
  | some (.link text) => (resolve v p.dropLast text).bind fun q => if t q = some .dir then some q else none
  | _ => none

/-- The folders in which Node looks for package `n` from folder `p` (below node_modules), innermost first: `node_modules` in
`p` and in each folder above it that is not itself called `node_modules`, down to the project's node_modules. -/
def lookupPath (p : Loc) (n : Str) : List Loc :=
  ((p.inits.reverse.filter fun q => decide (q ≠ []) && decide (q.getLast? ≠ some nmWord)).map fun q => q ++ nmWord :: nameSegs n) ++ [nameSegs n]

/-- what Node finds -/
def finds (v : Env) (t : Tree) (p : Loc) (n : Str) : Option Loc := (lookupPath p n).findSome? (leadsTo v t)

/-! ### commands -/

/-- What the system finds at a path: starting in folder `d`, the components `p` lead to `q`, links (relative ones) being
followed wherever they occur. -/
inductive Opens (t : Tree) : Loc → Loc → Loc → Prop
  | here (d : Loc) : t d = some .dir → Opens t d [] d
  | up (d : Loc) (x : Str) (p q : Loc) : Opens t d p q → Opens t (d ++ [x]) (dotdot :: p) q
  | into (d : Loc) (x : Str) (p q : Loc) : x ≠ dotdot → t (d ++ [x]) = some .dir → Opens t (d ++ [x]) p q → Opens t d (x :: p) q
  | file (d : Loc) (x : Str) (c : List UInt8) : x ≠ dotdot → t (d ++ [x]) = some (.file c) → Opens t d [x] (d ++ [x])
  | link (d : Loc) (x : Str) (text p q : Loc) : x ≠ dotdot → t (d ++ [x]) = some (.link text) → text.head? ≠ some ['/'] →
      Opens t d (text ++ p) q → Opens t d (x :: p) q

/-- The commands of the packages have names that can be folder names (and are not the store's, `.bin` or `..`), each at most once
in a package, and their files are in the package, not in its node_modules. -/
structure PlainCommands (pk : Pkgs P) (g : Graph Str P S) : Prop where
  name : ∀ (i : Nat) (nd : Node Str P S) b x, g.nodes[i]? = some nd → (b, x) ∈ pk.bins nd.pkg →
    FolderName b ∧ '/' ∉ b ∧ b ≠ storeName ∧ b ≠ binName ∧ b ≠ dotdot
  file : ∀ (i : Nat) (nd : Node Str P S) b x, g.nodes[i]? = some nd → (b, x) ∈ pk.bins nd.pkg →
    x ≠ [] ∧ x.head? ≠ some nmWord ∧ dotdot ∉ x
  once : ∀ (i : Nat) (nd : Node Str P S) b x x', g.nodes[i]? = some nd → (b, x) ∈ pk.bins nd.pkg → (b, x') ∈ pk.bins nd.pkg → x = x'

end Iso
end Oro
