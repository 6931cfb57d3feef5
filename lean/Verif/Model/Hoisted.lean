import Verif.Model.AtPath
import Verif.Model.Tarball
/-
Model of /repo/crates/node-maintainer/src/linkers/hoisted.rs (prune, extract, link_bins) and of
resolver.rs:443-460 (`load_actual`).

The disk below `node_modules` is a function from relative paths to entries.  Simplifications: no I/O errors other than
a file in the way of a folder; entries are not symbolic links to folders; package names do not contain `.` or `..`
segments; fetching and unpacking a package succeeds and yields `Pkgs.content` (see C23–C27 for that part).  The meta
file is kept apart from the other files.
-/

set_option linter.unusedSectionVars false

namespace Oro
namespace Hoisted

abbrev Bytes := List UInt8

/-- what can be at a path -/
inductive Entry where
  | dir
  | file (c : Bytes)
  /-- a command link and the path it points to -/
  | link (target : Loc)
  deriving DecidableEq

/-- paths are relative to `<root>/node_modules`, which is `[]` -/
abbrev Tree := Loc → Option Entry

/-- `node_modules` and its meta file (`none`: absent or unreadable; linkers/mod.rs:22 `META_FILE_NAME`) -/
structure Disk (V I : Type) where
  tree : Tree
  metaFile : Option (IMap Str (LNode V I))

/-- linkers/mod.rs:20-22 -/
def metaName : Str := ['.','o','r','o','g','e','n','e','-','m','e','t','a','.','k','d','l']
@[inherit_doc metaName] def storeName : Str := ['.','o','r','o','-','s','t','o','r','e']
/-- hoisted.rs:108, 363 -/
def binName : Str := ['.','b','i','n']

/-- What the packages contain and declare. -/
structure Pkgs (P : Type) where
  /-- the entries of the package once unpacked into its folder -/
  content : P → Loc → Option Entry
  /-- its package.json has a preinstall, install, postinstall or prepare script -/
  scripts : P → Bool
  /-- its commands: name and path inside the package (see C28) -/
  bins : P → List (Str × Loc)

variable {P S V I : Type} [DecidableEq V] [DecidableEq I]

/-- `entry_subpath`: the relative path with `/` between segments (hoisted.rs:148-152) -/
def joinSlash : Loc → Str
  | [] => []
  | [a] => a
  | a :: b :: l => a ++ '/' :: joinSlash (b :: l)

/-- What `filter_entry` (hoisted.rs:113-189) and the loop body (190-227) do with an entry. -/
inductive Verdict where
  /-- not visited, so kept with everything below -/
  | keep
  /-- visited but not removed, its entries are looked at next -/
  | descend
  /-- removed with everything below -/
  | delete
  deriving DecidableEq

/-- hoisted.rs:153-175: the package at this path is unchanged -/
def unchanged (v : LockView P S V I) (g : Graph Str P S) (actual : IMap Str (LNode V I)) (path : Loc) : Bool :=
  match (nodeAtPath g path).bind fun i => lockNode v g i false, actual.get? (joinSlash path) with
  | some ideal, some act => act.eqv ideal
  | _, _ => false

/-- hoisted.rs:113-227 for the entry `s` of the folder `pre` -/
def verdict (v : LockView P S V I) (g : Graph Str P S) (actual : IMap Str (LNode V I)) (pre : Loc) (s : Str) : Verdict :=
  if pre = [] ∧ s = metaName then .keep
  else if s = nmWord then .descend
  else if s = binName then .keep
  else if s.head? = some '@' then .descend
  else if pre = [] ∨ pre.getLast? = some nmWord then
    if unchanged v g actual (pre ++ [s]) then .keep else .delete
  else .keep

/-- The walk of hoisted.rs:112-227 seen from one path: is the entry at `pre ++ rest` still there afterwards?
`WalkDir` visits a folder before its entries, and an entry only if all folders above it were visited. -/
def survives (v : LockView P S V I) (g : Graph Str P S) (actual : IMap Str (LNode V I)) : Loc → Loc → Bool
  | _, [] => true
  | pre, s :: rest =>
    match verdict v g actual pre s with
    | .keep => true
    | .descend => survives v g actual (pre ++ [s]) rest
    | .delete => false

/-- hoisted.rs:60-104: everything in node_modules is removed -/
def wiped : Tree := fun p => if p = [] then some .dir else none

/-- hoisted.rs:37-240 `prune`; the actual tree is the meta file as read by `load_actual` (resolver.rs:443-460), which
removes it if it can not be read. -/
def prune (v : LockView P S V I) (g : Graph Str P S) (d : Disk V I) : Disk V I :=
  if d.tree [] = none then { d with metaFile := none }
  else match d.metaFile with
    | none => ⟨wiped, none⟩
    | some actual =>
      if d.tree [storeName] ≠ none then ⟨wiped, none⟩
      else ⟨fun p => if survives v g actual [] p then d.tree p else none, some actual⟩

/-- hoisted.rs:300-306: the folder of a package, as `PathBuf::join` splits it -/
def targetDir (g : Graph Str P S) (i : Nat) : Loc := PSpec.splitChar '/' (joinPath (g.nodePath i))

/-- the part of `p` below `d` -/
def below (d p : Loc) : Option Loc := if d.isPrefixOf p then some (p.drop d.length) else none

/-- folders above `d` are created if missing -/
def dirsAbove (t : Tree) (d : Loc) : Tree := fun p =>
  if p.isPrefixOf d && p ≠ d && (t p).isNone then some .dir else t p

/-- something that is no folder is in the way of the folder `d` -/
def blocked (t : Tree) (d : Loc) : Bool :=
  (List.range d.length).any fun k => decide (t (d.take k) ≠ none) && decide (t (d.take k) ≠ some .dir)

/-- unpacking a package's content into `d` -/
def unpack (content : Loc → Option Entry) (t : Tree) (d : Loc) : Option Tree :=
  if blocked t d then none
  else some fun p => match (below d p).bind content with
    | some e => some e
    | none => dirsAbove t d p

/-- progress of `extract`: the disk, `pending_rebuild` and `actually_extracted` -/
structure Ext where
  tree : Tree
  pending : List Nat
  count : Nat

/-- hoisted.rs:291-338: one package.  Packages are started in index order and the existence check is the first thing
done (before any suspension); the writes of different packages are to different places, so doing them one after the
other gives the same disk (proved in Props/Extract.lean, for any order of the single writes). -/
def extractNode (pk : Pkgs P) (g : Graph Str P S) (x : Ext) (i : Nat) : Option Ext :=
  if i = 0 then some x
  else match g.nodes[i]? with
    | none => some x
    | some nd =>
      if x.tree (targetDir g i) ≠ none then some x
      else (unpack (pk.content nd.pkg) x.tree (targetDir g i)).map fun t =>
        { tree := t
          pending := if pk.scripts nd.pkg || !(pk.bins nd.pkg).isEmpty then x.pending ++ [i] else x.pending
          count := x.count + 1 }

/-- hoisted.rs:242-357: `mkdirp(node_modules)`, then all packages -/
def extractAll (pk : Pkgs P) (g : Graph Str P S) (t : Tree) : Option Ext :=
  (List.range g.nodes.length).foldl (fun x i => x.bind fun x => extractNode pk g x i)
    (some ⟨fun p => if p = [] then some .dir else t p, [], 0⟩)

/-- hoisted.rs:37-357 prune, extract, and the meta file written last -/
def install (pk : Pkgs P) (v : LockView P S V I) (g : Graph Str P S) (d : Disk V I) : Option (Disk V I × Ext) :=
  (extractAll pk g (prune v g d).tree).bind fun x =>
    (toLockfile v g).map fun l => (⟨x.tree, some l.packages⟩, x)

/-- hoisted.rs:397-403: where the commands of a package go -/
def binDir (target : Loc) : Loc :=
  if target.dropLast = [] ∨ target.dropLast.getLast? = some nmWord then target.dropLast ++ [binName]
  else target.dropLast.dropLast ++ [binName]

/-- hoisted.rs:413-449: one command -/
def linkBin (target : Loc) (t : Tree) (b : Str × Loc) : Tree :=
  if t (target ++ b.2) = none then t
  else fun p =>
    if p = binDir target ++ [b.1] then some (.link (target ++ b.2))
    else if (binDir target ++ [b.1]).isPrefixOf p then none
    else dirsAbove t (binDir target ++ [b.1]) p

/-- hoisted.rs:385-452: the commands of one package -/
def linkPkg (pk : Pkgs P) (g : Graph Str P S) (t : Tree) (i : Nat) : Tree :=
  match g.nodes[i]? with
  | none => t
  | some nd => (pk.bins nd.pkg).foldl (linkBin (targetDir g i)) t

/-- hoisted.rs:364-376: the walk only enters folders called `node_modules` or `.bin`, and removes the latter -/
def cleared : Loc → Bool
  | [] => false
  | s :: rest => decide (s = binName) || (decide (s = nmWord) && cleared rest)

/-- hoisted.rs:359-455 `link_bins`: `node_modules/.bin` is removed, then the commands of the packages extracted in this
run are linked (the code does several packages at a time, see `C35_fresh` for the order). -/
def linkBins (pk : Pkgs P) (g : Graph Str P S) (pending : List Nat) (t : Tree) : Tree :=
  pending.foldl (linkPkg pk g) fun p => if cleared p then none else t p

/-- prune, extract and link_bins (the lifecycle scripts are in `Model/Scripts.lean`) -/
def applyTree (pk : Pkgs P) (v : LockView P S V I) (g : Graph Str P S) (d : Disk V I) : Option (Disk V I × Ext) :=
  (install pk v g d).map fun r => (⟨linkBins pk g r.2.pending r.1.tree, r.1.metaFile⟩, r.2)

end Hoisted
end Oro
