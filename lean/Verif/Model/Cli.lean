import Verif.Model.Json
/-
Model of /repo/src/apply_args.rs:127-168 (`ApplyArgs::execute`) and of the commands built on it
(/repo/src/commands/{apply,reapply,add,remove}.rs), as changes to the project folder.

The steps (resolution, pruning, extraction, linking commands, running scripts) are parameters, arbitrary programs that
succeed or fail; the ones that write may fail half way.  Simplification: lifecycle scripts change nothing outside
node_modules, and what they do elsewhere is recorded only as having run.
-/

set_option linter.unusedSectionVars false

namespace Oro
namespace Cli

/-- the three lifecycle events of an install -/
inductive Event where
  | preinstall | install | postinstall
  deriving DecidableEq

/-- the meta file in node_modules -/
inductive MetaFile where
  | absent
  | good
  | unreadable
  deriving DecidableEq

/-- The project folder. `N`: the rest of node_modules, `L`: the lockfile, `J`: package.json. -/
structure World (N L J : Type) where
  metaFile : MetaFile
  nm : N
  lock : L
  pkg : J
  /-- the events whose scripts were run -/
  ran : List Event

/-- apply_args.rs:20-100, the options that matter here -/
structure Opts where
  apply : Bool := true
  locked : Bool := false
  lockfileOnly : Bool := false
  lockfile : Bool := true
  scripts : Bool := true

/-- The parts of an apply.  `T`: the resolved tree, `C`: the manifest as the resolver reads it. A step that writes returns
what it leaves and whether it succeeded. -/
structure Steps (N L J C T : Type) where
  /-- maintainer.rs `resolve_manifest`, apart from `load_actual`; `none`: it failed -/
  resolve : C → Bool → L → MetaFile → N → Option T
  prune : T → MetaFile → N → (MetaFile × N) × Bool
  extract : T → MetaFile → N → (MetaFile × N) × Bool
  linkBins : T → N → N × Bool
  script : T → Event → N → N × Bool
  lockText : T → L
  /-- `fs::write` of the lockfile -/
  writeLock : L → L → L × Bool

variable {N L J C T : Type}

/-- resolver.rs:443-460 `load_actual`: an unreadable meta file is removed -/
def loadActual (m : MetaFile) : MetaFile := if m = .unreadable then .absent else m

/-- linkers/mod.rs:103-123: one event of `rebuild` -/
def runEvent (st : Steps N L J C T) (t : T) (e : Event) (w : World N L J) : World N L J × Bool :=
  ({ w with nm := (st.script t e w.nm).1, ran := w.ran ++ [e] }, (st.script t e w.nm).2)

/-- running one step after another, stopping at the first failure (`?`) -/
def andThen (a : World N L J × Bool) (f : World N L J → World N L J × Bool) : World N L J × Bool :=
  if a.2 then f a.1 else a

/-- linkers/mod.rs:103-123: running an event unless scripts are ignored -/
def maybeEvent (o : Opts) (st : Steps N L J C T) (t : T) (e : Event) (w : World N L J) : World N L J × Bool :=
  if o.scripts then runEvent st t e w else (w, true)

/-- linking commands, as a change to the project -/
def stepLink (st : Steps N L J C T) (t : T) (w : World N L J) : World N L J × Bool :=
  ({ w with nm := (st.linkBins t w.nm).1 }, (st.linkBins t w.nm).2)

/-- linkers/mod.rs:103-123 `rebuild(!scripts)` -/
def rebuild (o : Opts) (st : Steps N L J C T) (t : T) (w : World N L J) : World N L J × Bool :=
  andThen (maybeEvent o st t .preinstall w) fun w =>
  andThen (stepLink st t w) fun w =>
  andThen (maybeEvent o st t .install w) fun w => maybeEvent o st t .postinstall w

/-- maintainer.rs:540 `prune`, as a change to the project -/
def stepPrune (st : Steps N L J C T) (t : T) (w : World N L J) : World N L J × Bool :=
  ({ w with metaFile := (st.prune t w.metaFile w.nm).1.1, nm := (st.prune t w.metaFile w.nm).1.2 },
    (st.prune t w.metaFile w.nm).2)

/-- maintainer.rs:549 `extract`, as a change to the project -/
def stepExtract (st : Steps N L J C T) (t : T) (w : World N L J) : World N L J × Bool :=
  ({ w with metaFile := (st.extract t w.metaFile w.nm).1.1, nm := (st.extract t w.metaFile w.nm).1.2 },
    (st.extract t w.metaFile w.nm).2)

/-- apply_args.rs:141-150: installing, unless only the lockfile is wanted -/
def stepInstall (o : Opts) (st : Steps N L J C T) (t : T) (w : World N L J) : World N L J × Bool :=
  if o.lockfileOnly then (w, true)
  else andThen (stepPrune st t w) fun w => andThen (stepExtract st t w) fun w => rebuild o st t w

/-- apply_args.rs:152-160: the lockfile, if wanted -/
def stepLock (o : Opts) (st : Steps N L J C T) (t : T) (w : World N L J) : World N L J × Bool :=
  if o.lockfile then ({ w with lock := (st.writeLock w.lock (st.lockText t)).1 }, (st.writeLock w.lock (st.lockText t)).2)
  else (w, true)

/-- the project once the meta file was looked at -/
def looked (w : World N L J) : World N L J := { w with metaFile := loadActual w.metaFile }

/-- apply_args.rs:127-168 `execute` -/
def execute (o : Opts) (st : Steps N L J C T) (mani : C) (w : World N L J) : World N L J × Bool :=
  if o.apply then
    match st.resolve mani o.locked w.lock (loadActual w.metaFile) w.nm with
    | none => (looked w, false)
    | some t => andThen (stepInstall o st t (looked w)) (stepLock o st t)
  else (w, true)

/-- commands/apply.rs:26-40: package.json is read, `apply` is forced -/
def applyCmd (readCorgi : J → Option C) (o : Opts) (st : Steps N L J C T) (w : World N L J) : World N L J × Bool :=
  match readCorgi w.pkg with
  | none => (w, false)
  | some c => execute { o with apply := true } st c w

/-! ### editing package.json -/

/-- add.rs:134-139, remove.rs:84-89 -/
def kDeps : Str := ['d', 'e', 'p', 'e', 'n', 'd', 'e', 'n', 'c', 'i', 'e', 's']
@[inherit_doc kDeps] def kDev : Str := ['d', 'e', 'v', 'D', 'e', 'p', 'e', 'n', 'd', 'e', 'n', 'c', 'i', 'e', 's']
@[inherit_doc kDeps] def kOpt : Str :=
  ['o', 'p', 't', 'i', 'o', 'n', 'a', 'l', 'D', 'e', 'p', 'e', 'n', 'd', 'e', 'n', 'c', 'i', 'e', 's']
@[inherit_doc kDeps] def kPeer : Str := ['p', 'e', 'e', 'r', 'D', 'e', 'p', 'e', 'n', 'd', 'e', 'n', 'c', 'i', 'e', 's']
@[inherit_doc kDeps] def sections : List Str := [kDeps, kDev, kOpt, kPeer]

/-- add.rs:140-151, remove.rs:90-101: one section; `IndexMut` on an existing key replaces its value in place -/
def removeIn (name : Str) (v : Json) (ty : Str) : Json :=
  match v with
  | .obj m =>
    match IMap.get? m ty with
    | some (.obj d) => .obj (IMap.insert m ty (.obj (IMap.swapRemove d name)))
    | _ => v
  | _ => v

/-- add.rs:133-153, remove.rs:82-105 `remove_from_manifest` -/
def removeFrom (v : Json) (name : Str) : Json := sections.foldl (removeIn name) v

/-- add.rs:155-163 `dep_kind_str` -/
def depKind (dev opt : Bool) : Str := if dev then kDev else if opt then kOpt else kDeps

/-- add.rs:126-131, 90-91: one package; `none`: panic -/
def addOne (kind : Str) (v : Json) (p : Str × Str) : Option Json := (removeFrom v p.1).set2 kind p.1 (.str p.2)

/-- add.rs:48-93: all packages, with their names and what is to be written for them -/
def addAll (kind : Str) (v : Json) (ps : List (Str × Str)) : Option Json :=
  ps.foldl (fun v p => v.bind fun v => addOne kind v p) (some v)

/-- How package.json is read and written; see `Model/PrettyJson.lean`. -/
structure Editing (J C F : Type) where
  /-- `oro_pretty_json::from_str` -/
  read : J → Option F
  value : F → Json
  withValue : F → Json → F
  /-- `oro_pretty_json::to_string_pretty` -/
  write : F → J
  /-- the manifest as the resolver reads it -/
  corgi : J → Option C

/-- add.rs:95-119, remove.rs:52-77: the edited manifest is applied, then written -/
def applyEdited {F : Type} (ed : Editing J C F) (o : Opts) (st : Steps N L J C T) (f : F) (w : World N L J) :
    World N L J × Bool :=
  match ed.corgi (ed.write f) with
  | none => (w, false)
  | some c => andThen (execute { o with locked := false } st c w) fun w => ({ w with pkg := ed.write f }, true)

/-- add.rs:38-122 `AddCmd::execute`; `resolved`: names and requirements of the packages asked for (`none`: one of them
could not be resolved) -/
def addCmd {F : Type} (ed : Editing J C F) (o : Opts) (st : Steps N L J C T) (kind : Str)
    (resolved : Option (List (Str × Str))) (w : World N L J) : World N L J × Bool :=
  match ed.read w.pkg with
  | none => (w, false)
  | some f =>
    match resolved.bind (addAll kind (ed.value f)) with
    | none => (w, false)
    | some v => applyEdited ed o st (ed.withValue f v) w

/-- remove.rs:27-79 `RemoveCmd::execute`; `names` as parsed (`none`: one of them is no package name) -/
def removeCmd {F : Type} (ed : Editing J C F) (o : Opts) (st : Steps N L J C T) (names : Option (List Str))
    (w : World N L J) : World N L J × Bool :=
  match ed.read w.pkg with
  | none => (w, false)
  | some f =>
    match names with
    | none => (w, false)
    | some ns => applyEdited ed o st (ed.withValue f (ns.foldl removeFrom (ed.value f))) w

end Cli
end Oro
