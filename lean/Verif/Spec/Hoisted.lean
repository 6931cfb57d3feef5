import Verif.Model.Hoisted
import Verif.Spec.AtPath
/-
Vocabulary for C32–C35.
-/

set_option linter.unusedSectionVars false

namespace Oro
namespace Hoisted
variable {P S V I : Type} [DecidableEq V] [DecidableEq I]

/-- What should be at path `p` (relative to node_modules) when the tree `g` is installed: the content of the package the
path lies in, and the folders leading to packages. -/
def Expected (pk : Pkgs P) (g : Graph Str P S) (p : Loc) (e : Entry) : Prop :=
  (∃ i nd π r, i ≠ 0 ∧ g.nodes[i]? = some nd ∧ LocatedAt g i π ∧ nmWord :: p = folder π ++ r ∧
    pk.content nd.pkg r = some e) ∨
  (e = .dir ∧ (p = [] ∨ ∃ i π, i ≠ 0 ∧ LocatedAt g i π ∧ nmWord :: p <+: folder π))

/-- The path lies in a folder for commands. -/
def InBin (p : Loc) : Prop := ∃ q r, p = q ++ binName :: r ∧ (q = [] ∨ q.getLast? = some nmWord)

/-- The tree `g` is installed: exactly its packages are there, with their contents (commands apart). -/
def Installed (pk : Pkgs P) (g : Graph Str P S) (t : Tree) : Prop :=
  ∀ p, ¬ InBin p → ∀ e, t p = some e ↔ Expected pk g p e

/-- A tree that can be installed: a folder tree whose packages have names that can be folder names (and are none of
orogene's own), listed parents first, each with a folder as content and no `node_modules` of its own. -/
structure Installable (pk : Pkgs P) (g : Graph Str P S) : Prop where
  tree : FolderTree g
  order : ∀ (i : Nat) (nd : Node Str P S) p, g.nodes[i]? = some nd → nd.parent = some p → p < i
  names : ∀ (i : Nat) (nd : Node Str P S), i ≠ 0 → g.nodes[i]? = some nd → FolderName nd.name ∧ nd.name ≠ binName ∧ nd.name ≠ storeName ∧
    nd.name ≠ metaName ∧ ∀ s, nd.name ≠ '@' :: s ++ '/' :: nmWord
  dirs : ∀ (i : Nat) (nd : Node Str P S), i ≠ 0 → g.nodes[i]? = some nd → pk.content nd.pkg [] = some .dir
  bundled : ∀ (i : Nat) (nd : Node Str P S) r, i ≠ 0 → g.nodes[i]? = some nd → pk.content nd.pkg (nmWord :: r) = none

/-- The top-level package called `n` is recorded in the meta file exactly as the new tree has it. -/
def SameTop (v : LockView P S V I) (g : Graph Str P S) (recorded : IMap Str (LNode V I)) (n : Str) : Prop :=
  ∃ nd i ideal act, g.nodes[0]? = some nd ∧ nd.children.get? n = some i ∧ lockNode v g i false = some ideal ∧
    recorded.get? n = some act ∧ act.eqv ideal = true

/-- Under the top-level name `n`, both trees have the same packages in the same places. -/
def SameBelow (pk : Pkgs P) (g g' : Graph Str P S) (n : Str) : Prop :=
  ∀ ρ c, (∃ i nd, LocatedAt g i (n :: ρ) ∧ g.nodes[i]? = some nd ∧ pk.content nd.pkg = c) ↔
    ∃ i nd, LocatedAt g' i (n :: ρ) ∧ g'.nodes[i]? = some nd ∧ pk.content nd.pkg = c

/-- The changes from `g` to `g'` are ones that pruning notices: whatever it keeps – unscoped top-level packages recorded
as in the new tree, and everything scoped – is the same in both, with everything nested inside. -/
def Noticed (pk : Pkgs P) (v : LockView P S V I) (g g' : Graph Str P S) (recorded : IMap Str (LNode V I)) : Prop :=
  ∀ n, FolderName n → (n.head? = some '@' ∨ SameTop v g' recorded n) → SameBelow pk g g' n

/-- A state in which applying `g` on disk `d` may be interrupted. -/
inductive Interrupted (pk : Pkgs P) (v : LockView P S V I) (g : Graph Str P S) (d : Disk V I) : Disk V I → Prop where
  /-- while pruning: some of what is to be removed is gone -/
  | pruning (d' : Disk V I) : d'.metaFile = d.metaFile ∨ d'.metaFile = (prune v g d).metaFile →
      (∀ p, d'.tree p = d.tree p ∨ d'.tree p = (prune v g d).tree p) → Interrupted pk v g d d'
  /-- while extracting: some entries are there, some files may be incomplete -/
  | extracting (d' : Disk V I) (r : Disk V I × Ext) : install pk v g d = some r →
      d'.metaFile = (prune v g d).metaFile →
      (∀ p, d'.tree p = (prune v g d).tree p ∨
        ((prune v g d).tree p = none ∧ (d'.tree p = r.1.tree p ∨
          ∃ c c', c <+: c' ∧ d'.tree p = some (.file c) ∧ r.1.tree p = some (.file c')))) → Interrupted pk v g d d'
  /-- after extracting: before or while the meta file is written, commands are linked and scripts run -/
  | extracted (d' : Disk V I) (r : Disk V I × Ext) : install pk v g d = some r →
      (∀ p, ¬ InBin p → d'.tree p = r.1.tree p) → Interrupted pk v g d d'

/-- The meta file holds the entries of the tree `g`, as written and read back (C13). -/
def Recorded (v : LockView P S V I) (g : Graph Str P S) (m : Option (IMap Str (LNode V I))) : Prop :=
  ∃ l recorded, toLockfile v g = some l ∧ m = some recorded ∧ (∀ p ∈ recorded, p.2.WF) ∧ SameMap SameNode recorded l.packages

/-- There is nothing to rely on: no readable meta file, and node_modules is a folder or missing. -/
def Fresh (d : Disk V I) : Prop := d.metaFile = none ∧ ((∀ p, d.tree p = none) ∨ d.tree [] = some .dir)

/-- no entry without node_modules itself -/
def Sane (t : Tree) : Prop := t [] = none → ∀ p, t p = none

/-- The package at location `σ ++ [n]` declares command `b`; the link in the `.bin` folder next to it leads to a file of a
package of that folder that declares the command (itself, unless several packages declare it). -/
def CommandLinked (pk : Pkgs P) (g : Graph Str P S) (σ : List Str) (b : Str) (t : Tree) : Prop :=
  ∃ i nd n x p q, g.nodes[i]? = some nd ∧ LocatedAt g i (σ ++ [n]) ∧ (b, x) ∈ pk.bins nd.pkg ∧
    nmWord :: p = folder σ ++ [nmWord, binName, b] ∧ nmWord :: q = folder (σ ++ [n]) ++ x ∧ t p = some (.link q)

end Hoisted
end Oro
