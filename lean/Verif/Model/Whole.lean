import Verif.Model.Cli
import Verif.Model.Isolated
/-
The commands `oro apply` and `oro reapply` as a whole: the sequence of steps of `Model/Cli.lean` with the resolver of
`Model/Resolver.lean`, the lockfile of `Model/Lockfile.lean` and the linkers of `Model/Hoisted.lean` and `Model/Isolated.lean`
as the steps.

Simplifications, besides those of the parts: the only lockfile in the project is package-lock.kdl (C17 is about the others);
writing it, and writing the meta file, succeeds; what a step that fails leaves behind in node_modules is not modelled
(see C34 for that) – it is left as it was before the step. Lifecycle scripts are an arbitrary change of node_modules.
-/

set_option linter.unusedSectionVars false

namespace Oro
namespace Whole
open Hoisted (Tree Pkgs Disk)

variable {P S V I : Type} [DecidableEq S] [DecidableEq V] [DecidableEq I]

/-- what a command runs with -/
structure Setting (P S V I : Type) where
  /-- the registry, specifiers, and the number of requests at a time -/
  env : Env Str P S
  v : LockView P S V I
  c : Codec V I
  /-- lockfile.rs:160-220 `to_package` -/
  toPackage : LNode V I → Option (Option P)
  pk : Pkgs P
  /-- client.rs:321-335 `dummy_from_manifest` -/
  rootPkg : Manifest Str → P
  /-- the scripts of these packages for an event: the change they make, and whether they succeed -/
  script : List Nat → Cli.Event → Tree → Tree × Bool

/-- node_modules, apart from whether there is a meta file, and what the linker holds in memory -/
structure Nm where
  tree : Tree
  /-- the contents of the meta file, if there is one -/
  doc : KDoc
  /-- `pending_rebuild`, emptied when a linker is made -/
  rebuild : List Nat := []
  /-- the packages whose commands are to be linked (for the hoisted linker: `pending_rebuild` as well) -/
  bins : List Nat := []
  /-- `mkdir_cache`, used by the isolated linker -/
  cache : List Loc := []

/-- resolver.rs:443-460: node_modules as the linkers find it -/
def disk (c : Codec V I) (m : Cli.MetaFile) (n : Nm) : Disk V I :=
  ⟨n.tree, if m = .good then ((Lockfile.fromKdl c n.doc).toOption.map (·.packages)) else none⟩

/-- maintainer.rs:285-331: the lockfile, if there is one that can be read -/
def lockOf (c : Codec V I) (file : Option KDoc) : Option (Lockfile V I) := file.bind fun d => (Lockfile.fromKdl c d).toOption

/-- maintainer.rs:333-388 `resolve_manifest` up to the linker, when things happen in the order `sch` -/
def resolve (k : Setting P S V I) (sch : List (REvent S)) (m : Manifest Str) (locked : Bool) (file : Option KDoc) : Option (Graph Str P S) :=
  (Node.new k.env.parse [] (k.rootPkg m) m true).bind fun root =>
    match rrun k.env ((lockOf k.c file).map (·.tree k.toPackage)) (rinit root) sch with
    | some (.ok s) => if s.done then finish k.v locked (lockOf k.c file) s.graph else none
    | _ => none

/-- maintainer.rs:506-514, graph.rs:193-222: the document that is written to the lockfile and to the meta file -/
def document (k : Setting P S V I) (g : Graph Str P S) : Option KDoc := (toLockfile k.v g).map (·.toKdl k.c)

/-- linkers/mod.rs:147-243: the scripts of one event, for the packages that are due -/
def runScripts (k : Setting P S V I) (e : Cli.Event) (n : Nm) : Nm × Bool :=
  if n.rebuild = [] then (n, true) else ({ n with tree := (k.script n.rebuild e n.tree).1 }, (k.script n.rebuild e n.tree).2)

/-- the meta file after pruning -/
def metaAfter (m : Cli.MetaFile) (d : Disk V I) : Cli.MetaFile := if d.metaFile.isSome then m else .absent

/-- the meta file after pruning by the isolated linker (isolated.rs:38-110) -/
def isoMetaAfter (m : Cli.MetaFile) (d : Disk V I) : Cli.MetaFile :=
  if d.tree [] = none ∨ d.metaFile.isNone ∨ d.tree [Hoisted.storeName] = none then .absent else m

/-- apply_args.rs:127-168 with the hoisted linker -/
def hoisted {J : Type} (k : Setting P S V I) (sch : List (REvent S)) : Cli.Steps Nm (Option KDoc) J (Manifest Str) (Graph Str P S) where
  resolve m locked file _ _ := resolve k sch m locked file
  prune g m n := ((metaAfter m (Hoisted.prune k.v g (disk k.c m n)), { n with tree := (Hoisted.prune k.v g (disk k.c m n)).tree, rebuild := [], bins := [], cache := [] }), true)
  extract g m n :=
    match Hoisted.extractAll k.pk g n.tree, document k g with
    | some x, some doc => ((.good, { n with tree := x.tree, doc := doc, rebuild := x.pending, bins := x.pending }), true)
    | _, _ => ((m, n), false)
  linkBins g n := ({ n with tree := Hoisted.linkBins k.pk g n.bins n.tree }, true)
  script _ e n := runScripts k e n
  lockText := document k
  writeLock _ text := (text, true)

/-- apply_args.rs:127-168 with the isolated linker; `order`: the order in which the packages of a tree are done -/
def isolated {J : Type} (k : Setting P S V I) (e : Iso.Env) (order : Graph Str P S → List Nat) (sch : List (REvent S)) :
    Cli.Steps Nm (Option KDoc) J (Manifest Str) (Graph Str P S) where
  resolve m locked file _ _ := resolve k sch m locked file
  prune g m n := ((isoMetaAfter m (disk k.c m n), { n with tree := Iso.prune e g (disk k.c m n), rebuild := [], bins := [], cache := [] }), true)
  extract g m n :=
    match Iso.extractAll k.pk e g (order g) n.tree, document k g with
    | some x, some doc => ((.good, { tree := x.tree, doc := doc, rebuild := x.rebuild, bins := x.bins, cache := x.cache }), true)
    | _, _ => ((m, n), false)
  linkBins g n :=
    match Iso.linkBins k.pk e g n.bins (n.tree, n.cache) with
    | some z => ({ n with tree := z.1, cache := z.2 }, true)
    | none => (n, false)
  script _ ev n := runScripts k ev n
  lockText := document k
  writeLock _ text := (text, true)

end Whole

namespace Cli
variable {N L J C T : Type}

/-- commands/reapply.rs:19-62: node_modules is removed (`clear`: what is left of it, and whether that succeeded), then
package.json is read and applied -/
def reapplyCmd (clear : MetaFile → N → (MetaFile × N) × Bool) (readCorgi : J → Option C) (o : Opts) (st : Steps N L J C T) (w : World N L J) :
    World N L J × Bool :=
  andThen ({ w with metaFile := (clear w.metaFile w.nm).1.1, nm := (clear w.metaFile w.nm).1.2 }, (clear w.metaFile w.nm).2)
    (applyCmd readCorgi o st)

end Cli
namespace Whole

/-- `remove_dir_all` of node_modules -/
def clear (_ : Cli.MetaFile) (_ : Nm) : (Cli.MetaFile × Nm) × Bool := ((.absent, { tree := fun _ => none, doc := [] }), true)

end Whole
end Oro
