import Verif.Model.Hoisted
/-
Model of /repo/crates/node-maintainer/src/linkers/isolated.rs (prune, extract, link_deps, link_bins) on Unix.

The disk is the one of `Model/Hoisted.lean`: a function from paths relative to `<root>/node_modules` to entries.  Here
`Entry.link` holds the text of a symbolic link, by components (`/` as first component for an absolute path).
Simplifications: as for the hoisted linker, and: a link that leads out of node_modules leads nowhere; a package's folder
is named by the name the tree has it under (`package.name()` and `node.name` are the same text).
-/

set_option linter.unusedSectionVars false

namespace Oro
namespace Iso
open Hoisted (Entry Tree Pkgs Disk unpack storeName binName wiped)

variable {P S V I : Type}

/-- what the linker depends on besides the tree: `hash`: the first eight hexadecimal digits of the SHA-256 of a text
(isolated.rs:641-642), and `top`: the absolute path of node_modules -/
structure Env where
  hash : Str → Str
  top : Loc

/-- the name of package `i` -/
def nameOf (g : Graph Str P S) (i : Nat) : Str := ((g.nodes[i]?).map (·.name)).getD []

/-- isolated.rs:635-645 `package_dir_name` -/
def dirName (v : Env) (g : Graph Str P S) (i : Nat) : Str := nameOf g i ++ '@' :: v.hash (joinPath (g.nodePath i))

/-- isolated.rs:400-405: where a package is unpacked -/
def home (v : Env) (g : Graph Str P S) (i : Nat) : Loc :=
  storeName :: (PSpec.splitChar '/' (dirName v g i) ++ nmWord :: PSpec.splitChar '/' (nameOf g i))

/-- isolated.rs:130-139, 385, 441: the folder for a package's dependencies; for the project it is node_modules itself -/
def nm (v : Env) (g : Graph Str P S) (i : Nat) : Loc := if i = 0 then [] else home v g i ++ [nmWord]

/-- the packages that package `i` depends on (outgoing edges) -/
def depsOf (g : Graph Str P S) (i : Nat) : List Nat := (g.edges.filter (fun e => e.src = i)).map (·.dst)

/-- isolated.rs:519: the entry for dependency `j` of package `i` -/
def entryFor (v : Env) (g : Graph Str P S) (i j : Nat) : Loc := nm v g i ++ PSpec.splitChar '/' (nameOf g j)

/-! ### links -/

/-- `..` -/
def dotdot : Str := ['.', '.']

/-- `pathdiff::diff_paths`: the relative path from folder `base` to `dst` (both absolute, without `.` and `..`) -/
def diff : Loc → Loc → Loc
  | a :: x, b :: y => if a = b then diff x y else List.replicate (y.length + 1) dotdot ++ a :: x
  | x, y => List.replicate y.length dotdot ++ x

/-- following the components of a relative link text from folder `d`; `none` when it leaves node_modules -/
def walk : Loc → Loc → Option Loc
  | d, [] => some d
  | d, x :: r => if x = dotdot then (if d = [] then none else walk d.dropLast r) else walk (d ++ [x]) r

/-- where a link in folder `d` leads -/
def resolve (v : Env) (d text : Loc) : Option Loc :=
  if text.head? = some ['/'] then (if v.top.isPrefixOf text then some (text.drop v.top.length) else none) else walk d text

/-- `Path::exists`: follows a link -/
def existsAt (v : Env) (t : Tree) (p : Loc) : Bool :=
  match t p with
  | none => false
  | some (.link text) =>
    match resolve v p.dropLast text with
    | some q => (t q).isSome
    | none => false
  | some _ => true

/-! ### pruning -/

/-- isolated.rs:112-113: the folders of the store that belong to packages -/
def expected (v : Env) (g : Graph Str P S) (q : Loc) : Bool :=
  (List.range g.nodes.length).any fun i => i ≠ 0 && decide (q = storeName :: PSpec.splitChar '/' (dirName v g i))

/-- isolated.rs:160-216: is the entry `q` removed from the dependencies of package `i`, of which `j` is one?  Only entries
directly in the folder are looked at, so `q` is never that of a scoped package. -/
def badDep (v : Env) (g : Graph Str P S) (t : Tree) (q : Loc) (i j : Nat) : Bool :=
  decide (q = entryFor v g i j) && decide ((PSpec.splitChar '/' (nameOf g j)).length = 1) &&
    match t q with
    | some (.link text) => decide (text ≠ v.top ++ home v g j)
    | some _ => true
    | none => false

/-- isolated.rs:118-222: entries removed from folders of dependencies -/
def removedDep (v : Env) (g : Graph Str P S) (t : Tree) (q : Loc) : Bool :=
  (List.range g.nodes.length).any fun i => (depsOf g i).any fun j => badDep v g t q i j

/-- isolated.rs:230-316: entries removed from the store -/
def removedStore (v : Env) (g : Graph Str P S) (t : Tree) : Loc → Bool
  | [a, s] => decide (a = storeName) && !expected v g [a, s] && !(decide (t [a, s] = some .dir) && decide (s.head? = some '@'))
  | [a, s, s'] => decide (a = storeName) && !expected v g [a, s] && decide (t [a, s] = some .dir) && decide (s.head? = some '@') &&
      !expected v g [a, s, s']
  | _ => false

/-- the tree after pruning: an entry is gone if it, or a folder it is in, was removed -/
def pruned (v : Env) (g : Graph Str P S) (t : Tree) : Tree := fun p =>
  if p.inits.any fun q => removedDep v g t q || removedStore v g t q then none else t p

/-- isolated.rs:38-336 `prune`; the actual tree is only asked for its existence (the meta file) -/
def prune (v : Env) (g : Graph Str P S) (d : Disk V I) : Tree :=
  if d.tree [] = none then d.tree
  else if d.metaFile.isNone || decide (d.tree [storeName] = none) then wiped
  else pruned v g d.tree

/-! ### extracting -/

/-- put an entry -/
def put (t : Tree) (p : Loc) (e : Entry) : Tree := fun q => if q = p then some e else t q

/-- linkers/mod.rs:483-514 `mkdirp` (see `Model/Mkdirp.lean`); `none`: an error -/
def mkdirp (t : Tree) (cache : List Loc) (p : Loc) : Option (Tree × List Loc) :=
  if p ∈ cache then some (t, cache)
  else if p.dropLast ∈ cache then (if t p = none then some (put t p .dir, p :: cache) else none)
  else if p.inits.any fun q => decide (t q ≠ none) && decide (t q ≠ some .dir) then none
  else some (fun q => if q ∈ p.inits ∧ t q = none then some .dir else t q, p.inits ++ cache)

/-- isolated.rs:514-557: one dependency of `link_deps` -/
def linkDep (v : Env) (g : Graph Str P S) (i : Nat) (x : Tree × List Loc) (j : Nat) : Option (Tree × List Loc) :=
  if existsAt v x.1 (entryFor v g i j) then some x
  else (mkdirp x.1 x.2 (entryFor v g i j).dropLast).map fun y =>
    if y.1 (entryFor v g i j) = none then
      (put y.1 (entryFor v g i j) (.link (diff (home v g j) (entryFor v g i j).dropLast)), y.2)
    else y

/-- isolated.rs:506-559 `link_deps` -/
def linkDeps (v : Env) (g : Graph Str P S) (i : Nat) (x : Tree × List Loc) : Option (Tree × List Loc) :=
  (depsOf g i).foldl (fun x j => x.bind fun x => linkDep v g i x j) (some x)

/-- the progress of `extract`: the disk, the cache of `mkdirp`, `pending_rebuild` and `pending_bin_link` -/
structure Ext where
  tree : Tree
  cache : List Loc
  rebuild : List Nat
  bins : List Nat

/-- isolated.rs:407-431: unpacking one package -/
def placeNode (pk : Pkgs P) (v : Env) (g : Graph Str P S) (x : Ext) (i : Nat) : Option Ext :=
  if i = 0 then some x
  else match g.nodes[i]? with
    | none => some x
    | some nd =>
      if x.tree (home v g i) ≠ none then some x
      else (unpack (pk.content nd.pkg) x.tree (home v g i)).map fun t =>
        { x with
          tree := t
          rebuild := if pk.scripts nd.pkg then x.rebuild ++ [i] else x.rebuild
          bins := if (pk.bins nd.pkg).isEmpty then x.bins else x.bins ++ [i] }

/-- isolated.rs:383-447: one package -/
def extractNode (pk : Pkgs P) (v : Env) (g : Graph Str P S) (x : Ext) (i : Nat) : Option Ext :=
  (placeNode pk v g x i).bind fun y => (linkDeps v g i (y.tree, y.cache)).map fun z => { y with tree := z.1, cache := z.2 }

/-- isolated.rs:338-477 `extract`; `order` is the order in which the packages are done (the code does several at a time,
they write to different places) -/
def extractAll (pk : Pkgs P) (v : Env) (g : Graph Str P S) (order : List Nat) (t : Tree) : Option Ext :=
  if t [] ≠ none ∧ t [] ≠ some .dir then none
  else order.foldl (fun x i => x.bind fun x => extractNode pk v g x i) (some ⟨put t [] .dir, [[]], [], []⟩)

/-- prune and extract -/
def install (pk : Pkgs P) (v : Env) (g : Graph Str P S) (order : List Nat) (d : Disk V I) : Option Ext :=
  extractAll pk v g order (prune v g d)

/-! ### commands -/

/-- what the system finds at the path `rest` below folder `d`, following links on the way but not a link at the end
(links that lead to further links are not followed) -/
def locate (v : Env) (t : Tree) : Loc → Loc → Option Loc
  | d, [] => some d
  | d, [x] => some (d ++ [x])
  | d, x :: y :: r =>
    match t (d ++ [x]) with
    | some .dir => locate v t (d ++ [x]) (y :: r)
    | some (.link text) => (resolve v d text).bind fun q => if t q = some .dir then locate v t q (y :: r) else none
    | _ => none

/-- put an entry in place of whatever is there -/
def replace (t : Tree) (p : Loc) (e : Entry) : Tree := fun q => if q = p then some e else if p.isPrefixOf q then none else t q

/-- isolated.rs:592-625, linkers/mod.rs:444-481: one command `c` of a package, for package `s` that depends on it.  `from` is
made of the command's name, not the package's.  The permission bits are in Model/IsoBinModes.lean. -/
def linkBin (v : Env) (g : Graph Str P S) (z : Tree × List Loc) (s : Nat) (c : Str × Loc) : Option (Tree × List Loc) :=
  if ((locate v z.1 (nm v g s) (c.1 :: c.2)).bind z.1).isNone then some z
  else (mkdirp z.1 z.2 (nm v g s ++ [binName])).map fun y =>
    (replace y.1 (nm v g s ++ [binName, c.1]) (.link (diff (nm v g s ++ c.1 :: c.2) (nm v g s ++ [binName]))), y.2)

/-- isolated.rs:580-629: the commands of package `i` for each package that depends on it; the manifest is the one the package
was unpacked with -/
def jobs (pk : Pkgs P) (g : Graph Str P S) (i : Nat) : List (Nat × Str × Loc) :=
  ((g.edges.filter fun e => e.dst = i).reverse.map (·.src)).flatMap fun s =>
    (((g.nodes[i]?).map fun nd => pk.bins nd.pkg).getD []).map fun c => (s, c)

/-- isolated.rs:479-491 `link_bins`: the list is taken from its end -/
def linkBins (pk : Pkgs P) (v : Env) (g : Graph Str P S) (pending : List Nat) (z : Tree × List Loc) : Option (Tree × List Loc) :=
  (pending.reverse.flatMap (jobs pk g)).foldl (fun z c => z.bind fun z => linkBin v g z c.1 c.2) (some z)

/-- prune, extract and link the commands -/
def apply (pk : Pkgs P) (v : Env) (g : Graph Str P S) (order : List Nat) (d : Disk V I) : Option (Tree × List Loc) :=
  (install pk v g order d).bind fun y => linkBins pk v g y.bins (y.tree, y.cache)

end Iso
end Oro
