import Verif.Base.Str
import Verif.Base.IMap
/-
Model of /repo/crates/node-maintainer/src/graph.rs: the dependency graph together with the
"logical filesystem hierarchy" (parent/children) in which packages are placed.

Type parameters (all arbitrary):
* `N` – package names.  Rust uses `UniCase<String>`; `N` stands for case-folded names, so `=` on `N` is
  `UniCase` equality.
* `P` – resolved packages (`nassun::Package`).
* `S` – package specifiers (`PackageSpec`).
-/

set_option linter.unusedSectionVars false

namespace Oro

/-- graph.rs:111-117 `DepType` -/
inductive DepType where
  | prod | dev | peer | opt
  deriving DecidableEq, Repr

/-- graph.rs:34-54 `Node`.  `idx` is the position in `Graph.nodes`; `root` is always node 0. -/
structure Node (N P S : Type) where
  name : N
  pkg : P
  /-- `dependency_reqs` -/
  reqs : IMap N (S × DepType)
  parent : Option Nat := none
  children : IMap N Nat := []
  /-- `dependencies`: dependency name to edge index -/
  deps : IMap N Nat := []
  deriving DecidableEq

/-- graph.rs:119-133 `Edge`, together with its endpoints (stored by petgraph). -/
structure Edge (S : Type) where
  src : Nat
  dst : Nat
  spec : S
  ty : DepType
  deriving DecidableEq

/-- graph.rs:135-139 `Graph`.  petgraph's `StableGraph` hands out dense, increasing indices as long as nothing is
removed, and the resolver never removes nodes or edges; so nodes and edges are lists indexed by position and the
root is node 0 (`Default`/first insertion, maintainer.rs:352-359). -/
structure Graph (N P S : Type) where
  nodes : List (Node N P S)
  edges : List (Edge S)
  deriving DecidableEq

/-- The dependency sections of a `CorgiManifest` (oro-common/src/manifest.rs) the resolver reads.
`peer_dependencies` are ignored by the code (graph.rs:74-81, commented out). -/
structure Manifest (N : Type) where
  deps : List (N × Str) := []
  optDeps : List (N × Str) := []
  devDeps : List (N × Str) := []
  deriving DecidableEq, Repr

section
variable {N P S : Type} [DecidableEq N]

/-- graph.rs:57-92: collect the requirements of a node: prod, then optional, then (root only) dev dependencies;
a later entry of the same name overrides the value.  `parse n s` models `format!("{n}@{s}").parse()`;
`none` is a parse error (the `?` on graph.rs:90). -/
def mkReqs (parse : N → Str → Option S) (m : Manifest N) (isRoot : Bool) :
    Option (IMap N (S × DepType)) :=
  let all := m.deps.map (fun d => (d, DepType.prod)) ++ m.optDeps.map (fun d => (d, DepType.opt))
    ++ (if isRoot then m.devDeps.map (fun d => (d, DepType.dev)) else [])
  all.foldl (init := some []) fun acc d =>
    match acc, parse d.1.1 d.1.2 with
    | some acc, some spec => some (acc.insert d.1.1 (spec, d.2))
    | _, _ => none

/-- graph.rs:57-103 `Node::new` -/
def Node.new (parse : N → Str → Option S) (name : N) (pkg : P) (m : Manifest N) (isRoot : Bool) :
    Option (Node N P S) :=
  (mkReqs parse m isRoot).map fun reqs => { name, pkg, reqs }

namespace Graph

/-- Indices visited by `NodeParentIterator` (graph.rs:419-437), bounded by `fuel` steps. -/
def ancs (g : Graph N P S) : Nat → Nat → List Nat
  | 0, _ => []
  | fuel + 1, i =>
    match g.nodes[i]? with
    | none => []
    | some nd =>
      i :: match nd.parent with
        | none => []
        | some p => ancs g fuel p

/-- graph.rs:224-229 `node_parent_iter`: the node itself, its parent, ... up to the root.  The Rust iterator is
unbounded; `i + 1` steps are enough because parents have smaller indices (`Proofs/Graph.lean`, `Graph.Tree`). -/
def ancestors (g : Graph N P S) (i : Nat) : List Nat := g.ancs (i + 1) i

/-- `self.inner[j].children.get(n)` -/
def child? (g : Graph N P S) (j : Nat) (n : N) : Option Nat :=
  (g.nodes[j]?).bind fun nd => nd.children.get? n

/-- graph.rs:179-186 `resolve_dep` -/
def resolveDep (g : Graph N P S) (i : Nat) (n : N) : Option Nat :=
  (g.ancestors i).findSome? fun j => g.child? j n

/-- graph.rs:280-292 `find_by_name` (same walk, written with `contains_key` + index). -/
def findByName (g : Graph N P S) (i : Nat) (n : N) : Option Nat :=
  (g.ancestors i).findSome? fun j => g.child? j n

/-- graph.rs:188-191 `is_ancestor` (reflexive) -/
def isAncestor (g : Graph N P S) (a d : Nat) : Bool := (g.ancestors d).any (· == a)

/-- graph.rs:105-108 `Node::depth` -/
def depth (g : Graph N P S) (i : Nat) : Nat := (g.ancestors i).length - 1

/-- graph.rs:294-309 `node_path`: names from below the root down to the node; empty for the root. -/
def nodePath (g : Graph N P S) (i : Nat) : List N :=
  (((g.ancestors i).takeWhile (· ≠ 0)).reverse).filterMap fun j => (g.nodes[j]?).map (·.name)

/-- graph.rs:170-177 `is_optional`: every incoming edge is optional. -/
def isOptional (g : Graph N P S) (i : Nat) : Bool :=
  (g.edges.filter (fun e => e.dst == i)).all fun e => e.ty == DepType.opt

/-- Package of a node. -/
def pkg? (g : Graph N P S) (i : Nat) : Option P := (g.nodes[i]?).map (·.pkg)

/-- `self.inner.add_node` -/
def addNode (g : Graph N P S) (nd : Node N P S) : Graph N P S := { g with nodes := g.nodes ++ [nd] }

/-- `self.inner.add_edge` -/
def addEdge (g : Graph N P S) (e : Edge S) : Graph N P S := { g with edges := g.edges ++ [e] }

/-- mutation through `IndexMut` -/
def modify (g : Graph N P S) (i : Nat) (f : Node N P S → Node N P S) : Graph N P S :=
  { g with nodes := g.nodes.modify i f }

end Graph
end
end Oro
