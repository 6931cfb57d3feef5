import Verif.Model.Resolver
/-
Model of /repo/crates/node-maintainer/src/lockfile.rs, graph.rs:193-218,366-417 (`to_lockfile`),
maintainer.rs:285-331 (`get_lockfile`) and resolver.rs:261-267 (the `locked` check).

Simplifications: names and paths are strings compared with `=`; Rust wraps them in `UniCase` (case-insensitive), so
the model's strings stand for case-folded ones.  The KDL text syntax (crate `kdl`: printing, `fmt`, parsing) is not
modelled; the document tree is.
-/

set_option linter.unusedSectionVars false

namespace Oro

/-- `kdl::KdlValue` (only the distinctions the code makes) -/
inductive KVal where
  | str (s : Str)
  | int (i : Int)
  /-- a number with a fraction: is it different from zero, and its text -/
  | float (nonzero : Bool) (text : Str)
  | bool (b : Bool)
  | null
  deriving DecidableEq

/-- `kdl::KdlNode`: name, entries (an entry with a name is a property, one without is an argument), children -/
inductive KNode where
  | mk (name : Str) (entries : List (Option Str × KVal)) (children : Option (List KNode))

namespace KNode
def name : KNode → Str | mk n _ _ => n
def entries : KNode → List (Option Str × KVal) | mk _ e _ => e
def children : KNode → Option (List KNode) | mk _ _ c => c
/-- `KdlNode::get(0)`: the first positional argument -/
def arg0 (k : KNode) : Option KVal := (k.entries.find? (fun e => e.1.isNone)).map (·.2)
end KNode

/-- `kdl::KdlDocument` -/
abbrev KDoc := List KNode

/-- `KdlDocument::get`: the first node of that name -/
def KDoc.get (d : KDoc) (n : Str) : Option KNode := d.find? (fun k => decide (k.name = n))
/-- `KdlDocument::get_arg` -/
def KDoc.getArg (d : KDoc) (n : Str) : Option KVal := (KDoc.get d n).bind KNode.arg0

/-- `KdlValue::as_string` -/
def KVal.asStr : KVal → Option Str | .str s => some s | _ => none
/-- `KdlValue::as_i64` -/
def KVal.asInt : KVal → Option Int | .int i => some i | _ => none

/-- a node with one string argument and no children: `KdlNode::new(n)` + `push(s)` -/
def KNode.leaf (n s : Str) : KNode := .mk n [(none, .str s)] none

/-- the folder name "node_modules" -/
def nmWord : Str := ['n', 'o', 'd', 'e', '_', 'm', 'o', 'd', 'u', 'l', 'e', 's']

/-- The separator "/node_modules/" in path keys (graph.rs:209, lockfile.rs:66, 105, resolver.rs:321) -/
def nmSep : Str := '/' :: (nmWord ++ ['/'])

/-- `path.iter().map(to_string).collect::<Vec<_>>().join("/node_modules/")` -/
def joinPath : List Str → Str
  | [] => []
  | [a] => a
  | a :: b :: l => a ++ nmSep ++ joinPath (b :: l)

/-- How versions (`node_semver::Version`) and integrities (`ssri::Integrity`) are written and read.  The two laws are
assumptions about those crates: what their `Display` prints, their `FromStr` reads back. -/
structure Codec (V I : Type) where
  showV : V → Str
  parseV : Str → Option V
  showI : I → Str
  parseI : Str → Option I
  parse_showV : ∀ v, parseV (showV v) = some v
  parse_showI : ∀ i, parseI (showI i) = some i

/-- lockfile.rs:131-143 `LockfileNode` -/
structure LNode (V I : Type) where
  name : Str
  isRoot : Bool
  path : List Str
  resolved : Option Str
  version : Option V
  integrity : Option I
  deps : IMap Str Str
  devDeps : IMap Str Str
  peerDeps : IMap Str Str
  optDeps : IMap Str Str
  deriving DecidableEq

/-- lockfile.rs:14-19 `Lockfile` -/
structure Lockfile (V I : Type) where
  version : Nat
  root : LNode V I
  packages : IMap Str (LNode V I)
  deriving DecidableEq

inductive LockErr where
  | missingName | missingRoot | badVersion | badIntegrity | badSemver
  deriving DecidableEq, Repr

/-- lockfile.rs:36, 58, 68, 82, 239, 247, 256, 303-326: node names of the document -/
def kVersion : Str := "version".toList
@[inherit_doc kVersion] def kResolved : Str := "resolved".toList
@[inherit_doc kVersion] def kIntegrity : Str := "integrity".toList
@[inherit_doc kVersion] def kRoot : Str := "root".toList
@[inherit_doc kVersion] def kPkg : Str := "pkg".toList
@[inherit_doc kVersion] def kLockVersion : Str := "lockfile-version".toList

/-- lockfile.rs:283-288, 358-363: section names -/
def sectionName : DepType → Str
  | .prod => "dependencies".toList
  | .dev => "dev-dependencies".toList
  | .peer => "peer-dependencies".toList
  | .opt => "optional-dependencies".toList

/-- lockfile.rs:356-376 `to_kdl_deps` -/
def depsToKdl (ty : DepType) (deps : IMap Str Str) : KNode :=
  .mk (sectionName ty) [] (some (sortBy (fun a b => strLe a.name b.name) (deps.map fun d => KNode.leaf d.1 d.2)))

/-- lockfile.rs:278-300 `from_kdl_deps` -/
def depsFromKdl (children : KDoc) (ty : DepType) : IMap Str Str :=
  match KDoc.get children (sectionName ty) with
  | none => []
  | some node =>
    match node.children with
    | none => []
    | some l => l.foldl (fun m dep => m.insert dep.name ((dep.arg0.bind KVal.asStr).getD ['*'])) []

section
variable {V I : Type}

/-- lockfile.rs:302-354: the `if !deps.is_empty()` blocks -/
def depsBlock (ty : DepType) (deps : IMap Str Str) : List KNode :=
  if deps.isEmpty then [] else [depsToKdl ty deps]

/-- lockfile.rs:311-315: the `version` child -/
def versionBlock (c : Codec V I) : Option V → List KNode
  | some v => [KNode.leaf kVersion (c.showV v)]
  | none => []

/-- lockfile.rs:316-328: the `resolved` and `integrity` children; `integrity` only together with `resolved`, and
neither for the root -/
def resolvedBlock (c : Codec V I) (isRoot : Bool) : Option Str → Option I → List KNode
  | some r, integrity =>
    if isRoot then []
    else KNode.leaf kResolved r :: (match integrity with
      | some i => [KNode.leaf kIntegrity (c.showI i)]
      | none => [])
  | none, _ => []

/-- The children pushed by `LockfileNode::to_kdl` (lockfile.rs:311-353), in order -/
def LNode.kdlChildren (c : Codec V I) (n : LNode V I) : List KNode :=
  versionBlock c n.version ++ (resolvedBlock c n.isRoot n.resolved n.integrity ++ (depsBlock .prod n.deps ++
    (depsBlock .dev n.devDeps ++ (depsBlock .peer n.peerDeps ++ depsBlock .opt n.optDeps))))

/-- lockfile.rs:302-354 `LockfileNode::to_kdl`; `ensure_children` creates the child block only when something is
pushed into it -/
def LNode.toKdl (c : Codec V I) (n : LNode V I) : KNode :=
  .mk (if n.isRoot then kRoot else kPkg) (n.path.map fun p => (none, KVal.str p))
    (if (n.kdlChildren c).isEmpty then none else some (n.kdlChildren c))

/-- `Option<Result>::transpose` on a parsed optional field -/
def parseOpt {α : Type} (parse : Str → Option α) (e : LockErr) : Option Str → Except LockErr (Option α)
  | none => .ok none
  | some s => match parse s with
    | some v => .ok (some v)
    | none => .error e

/-- lockfile.rs:236-244: the name of an entry read from KDL -/
def readName (isRoot : Bool) (path : List Str) : Except LockErr Str :=
  if isRoot then .ok []
  else match path.getLast? with
    | some n => .ok n
    | none => .error .missingName

/-- lockfile.rs:222-276 `LockfileNode::from_kdl` -/
def LNode.fromKdl (c : Codec V I) (node : KNode) (isRoot : Bool) : Except LockErr (LNode V I) := do
  let children : KDoc := node.children.getD []
  let path := node.entries.filterMap fun e => if e.1.isNone then e.2.asStr else none
  let name ← readName isRoot path
  let integrity ← parseOpt c.parseI .badIntegrity ((KDoc.getArg children kIntegrity).bind KVal.asStr)
  let version ← parseOpt c.parseV .badSemver ((KDoc.getArg children kVersion).bind KVal.asStr)
  let resolved := (KDoc.getArg children kResolved).bind KVal.asStr
  return { name, isRoot, path, resolved, version, integrity,
           deps := depsFromKdl children .prod, devDeps := depsFromKdl children .dev,
           optDeps := depsFromKdl children .opt, peerDeps := depsFromKdl children .peer }

/-- `self.version as i64` for a `u64` -/
def asI64 (v : Nat) : Int := if v < 2 ^ 63 then (v : Int) else (v : Int) - 2 ^ 64

/-- lockfile.rs:34-50 `Lockfile::to_kdl` (without the leading comment and `fmt`) -/
def Lockfile.toKdl (c : Codec V I) (l : Lockfile V I) : KDoc :=
  KNode.mk kLockVersion [(none, .int (asI64 l.version))] none :: l.root.toKdl c ::
    (sortBy (fun a b => strLe a.1 b.1) l.packages).map fun p => p.2.toKdl c

/-- collecting `Result<(key, node)>` into `Result<IndexMap>`: first error wins, later keys override -/
def collectNodes : List (Except LockErr (LNode V I)) → IMap Str (LNode V I) → Except LockErr (IMap Str (LNode V I))
  | [], m => .ok m
  | .error e :: _, _ => .error e
  | .ok n :: l, m => collectNodes l (m.insert (joinPath n.path) n)

/-- lockfile.rs:71-79: negative versions do not fit `u64` -/
def readVersion (i : Option Int) (dflt : Nat) : Except LockErr Nat :=
  match i with
  | none => .ok dflt
  | some i => if 0 ≤ i then .ok i.toNat else .error .badVersion

/-- lockfile.rs:80-84: the root entry -/
def readRoot (c : Codec V I) : Option KNode → Except LockErr (LNode V I)
  | some k => LNode.fromKdl c k true
  | none => .error .missingRoot

/-- lockfile.rs:52-90 `Lockfile::from_kdl` (after KDL parsing) -/
def Lockfile.fromKdl (c : Codec V I) (doc : KDoc) : Except LockErr (Lockfile V I) := do
  let packages ← collectNodes
    ((doc.filter fun k => decide (k.name = kPkg)).map fun k => LNode.fromKdl c k false) []
  let version ← readVersion ((KDoc.getArg doc kLockVersion).bind KVal.asInt) 1
  let root ← readRoot c (KDoc.get doc kRoot)
  return { version, root, packages }

/-- `str::split(sep)`: leftmost non-overlapping matches; `fuel` bounds the number of steps -/
def splitAux (sep : Str) : Nat → Str → List Str
  | 0, s => [s]
  | k + 1, s =>
    if sep.isPrefixOf s then [] :: splitAux sep k (s.drop sep.length)
    else match s with
      | [] => [[]]
      | a :: s => match splitAux sep k s with
        | [] => [[a]]
        | h :: t => (a :: h) :: t

/-- `str::split(sep)` -/
def splitStr (sep s : Str) : List Str := splitAux sep s.length s

/-- lockfile.rs:434-453 `NpmPackageLockEntry` (after JSON parsing) -/
structure NpmEntry where
  name : Option Str := none
  version : Option Str := none
  resolved : Option Str := none
  integrity : Option Str := none
  deps : IMap Str Str := []
  devDeps : IMap Str Str := []
  optDeps : IMap Str Str := []
  peerDeps : IMap Str Str := []

/-- lockfile.rs:378-386: the path of an npm entry -/
def npmPath (key : Str) : List Str := (splitStr nmSep ('/' :: key)).drop 1

/-- lockfile.rs:387-395: the name of an npm entry -/
def npmName (key : Str) (name : Option Str) (path : List Str) : Except LockErr Str :=
  if key.isEmpty then .ok []
  else match name with
    | some n => .ok n
    | none => match path.getLast? with
      | some n => .ok n
      | none => .error .missingName

/-- lockfile.rs:378-420 `LockfileNode::from_npm` -/
def LNode.fromNpm (c : Codec V I) (key : Str) (e : NpmEntry) : Except LockErr (LNode V I) := do
  let path := npmPath key
  let name ← npmName key e.name path
  let integrity ← parseOpt c.parseI .badIntegrity e.integrity
  let version ← parseOpt c.parseV .badSemver e.version
  return { name, isRoot := path.isEmpty, path, resolved := e.resolved, version, integrity,
           deps := e.deps, devDeps := e.devDeps, optDeps := e.optDeps, peerDeps := e.peerDeps }

/-- lockfile.rs:119-123: the root entry -/
def npmRoot (c : Codec V I) : Option NpmEntry → Except LockErr (LNode V I)
  | some e => LNode.fromNpm c [] e
  | none => .error .missingRoot

/-- lockfile.rs:92-128 `Lockfile::from_npm` (after JSON parsing); `usize` to `u64` cannot fail -/
def Lockfile.fromNpm (c : Codec V I) (version : Option Nat) (packages : IMap Str NpmEntry) :
    Except LockErr (Lockfile V I) := do
  let pkgs ← collectNodes (packages.map fun p => LNode.fromNpm c p.1 p.2) []
  let root ← npmRoot c (packages.get? [])
  return { version := version.getD 3, root, packages := pkgs }

/-- `PartialEq` of `IndexMap`: same length and every entry of the first is in the second -/
def imapEq {K W : Type} [DecidableEq K] (eq : W → W → Bool) (a b : IMap K W) : Bool :=
  decide (a.length = b.length) && a.all fun kv => match b.get? kv.1 with
    | some w => eq kv.2 w
    | none => false

variable [DecidableEq V] [DecidableEq I]

/-- derived `PartialEq` of `LockfileNode` (lockfile.rs:131) -/
def LNode.eqv (a b : LNode V I) : Bool :=
  decide (a.name = b.name) && decide (a.isRoot = b.isRoot) && decide (a.path = b.path) &&
  decide (a.resolved = b.resolved) && decide (a.version = b.version) && decide (a.integrity = b.integrity) &&
  imapEq (fun x y => decide (x = y)) a.deps b.deps && imapEq (fun x y => decide (x = y)) a.devDeps b.devDeps &&
  imapEq (fun x y => decide (x = y)) a.peerDeps b.peerDeps && imapEq (fun x y => decide (x = y)) a.optDeps b.optDeps

/-- derived `PartialEq` of `Lockfile` (lockfile.rs:14) -/
def Lockfile.eqv (a b : Lockfile V I) : Bool :=
  decide (a.version = b.version) && a.root.eqv b.root && imapEq LNode.eqv a.packages b.packages

end

/-- nassun/src/resolver.rs:20-44 `PackageResolution` as far as the lockfile records it; the display forms of the
tarball URL, directory and git info are strings -/
inductive Resolved (V I : Type) where
  | npm (version : V) (tarball : Str) (integrity : Option I)
  | dir (path : Str)
  | git (info : Str)

/-- How packages and specifiers of the graph are written to a lockfile. -/
structure LockView (P S V I : Type) where
  /-- `Package::name` -/
  pkgName : P → Str
  /-- `Package::resolved` -/
  resolved : P → Resolved V I
  /-- `PackageSpec::requested` (oro-package-spec/src/lib.rs:86-103) -/
  reqStr : S → Str

section
variable {P S V I : Type}

/-- graph.rs:383-398: what one link contributes to the section of kind `ty` -/
def linkEntry (v : LockView P S V I) (g : Graph Str P S) (ty : DepType) (d : Str × Nat) : Option (Str × Str) :=
  match g.edges[d.2]? with
  | some e => if e.ty = ty then some (d.1, v.reqStr e.spec) else none
  | none => none

/-- graph.rs:379-399: the links of a node, grouped by kind -/
def linkGroup (v : LockView P S V I) (g : Graph Str P S) (nd : Node Str P S) (ty : DepType) : IMap Str Str :=
  IMap.ofList (nd.deps.filterMap (linkEntry v g ty))

/-- graph.rs:366-417 `node_lockfile_node`; `none`: no such node (index panic) -/
def lockNode (v : LockView P S V I) (g : Graph Str P S) (i : Nat) (isRoot : Bool) : Option (LNode V I) :=
  (g.nodes[i]?).map fun nd =>
    { name := v.pkgName nd.pkg
      isRoot := isRoot
      path := g.nodePath i
      resolved := some (match v.resolved nd.pkg with
        | .npm _ t _ => t
        | .dir p => p
        | .git i => i)
      version := match v.resolved nd.pkg with
        | .npm ver _ _ => some ver
        | _ => none
      integrity := match v.resolved nd.pkg with
        | .npm _ _ i => i
        | _ => none
      deps := linkGroup v g nd .prod
      devDeps := linkGroup v g nd .dev
      peerDeps := linkGroup v g nd .peer
      optDeps := linkGroup v g nd .opt }

/-- graph.rs:193-218 `to_lockfile`; `none`: no root -/
def toLockfile (v : LockView P S V I) (g : Graph Str P S) : Option (Lockfile V I) :=
  (lockNode v g 0 true).map fun root =>
    { version := 1
      root := root
      packages := IMap.ofList (((List.range g.nodes.length).filter (· ≠ 0)).filterMap fun i =>
        (lockNode v g i false).map fun n => (joinPath n.path, n)) }

/-- resolver.rs:261-267: the end of `run_resolver`.  `none`: `LockfileMismatch` (or no root). -/
def finish [DecidableEq V] [DecidableEq I] (v : LockView P S V I) (locked : Bool) (lock : Option (Lockfile V I))
    (g : Graph Str P S) : Option (Graph Str P S) :=
  if locked then
    match lock with
    | some l => (toLockfile v g).bind fun l' => if l.eqv l' then some g else none
    | none => some g
  else some g

/-- What is found where a lockfile may be: the file does not exist, exists but is unreadable, or has this text. -/
inductive FileState where
  | absent | unreadable | text (s : Str)

/-- maintainer.rs:294-327: read and parse one candidate; `none` falls through -/
def tryFile {α : Type} (parse : Str → Option α) : FileState → Option α
  | .text s => parse s
  | _ => none

/-- maintainer.rs:285-331 `get_lockfile`.  `files` are `package-lock.kdl`, `package-lock.json`,
`npm-shrinkwrap.json` in the project root, if the maintainer has one. -/
def getLockfile {α : Type} (parseKdl parseNpm : Str → Option α) (kdlLock npmLock : Option α)
    (files : Option (FileState × FileState × FileState)) : Option α :=
  match kdlLock with
  | some l => some l
  | none =>
    match npmLock with
    | some l => some l
    | none =>
      match files with
      | none => none
      | some (a, b, c) =>
        match tryFile parseKdl a with
        | some l => some l
        | none =>
          match tryFile parseNpm b with
          | some l => some l
          | none => tryFile parseNpm c

/-- lockfile.rs:145-158 `From<LockfileNode> for CorgiManifest` -/
def LNode.manifest (n : LNode V I) : Manifest Str := { deps := n.deps, optDeps := n.optDeps, devDeps := n.devDeps }

/-- A lockfile as the resolver sees it (`Model/Resolver.lean`, `LockTree`), given `to_package`. -/
def Lockfile.tree (toPackage : LNode V I → Option (Option P)) (l : Lockfile V I) : LockTree Str P :=
  l.packages.map fun p => (p.2.path, ⟨p.2.path, toPackage p.2, p.2.manifest⟩)

end
end Oro
