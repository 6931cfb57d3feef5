import Verif.Model.Graph
import Verif.Base.Sort
/-
Model of /repo/crates/node-maintainer/src/resolver.rs: the dependency resolver as a transition system.
The async machinery (channel, `buffer_unordered`, `ready_chunks`) is modelled by nondeterministic events, so that a
schedule is an arbitrary list of events.
-/

set_option linter.unusedSectionVars false

namespace Oro

/-- The outside world of the resolver (all fields arbitrary). -/
structure Env (N P S : Type) where
  /-- `format!("{name}@{spec}").parse::<PackageSpec>()` (graph.rs:90) -/
  parse : N → Str → Option S
  /-- `PackageResolution::satisfies` (nassun/src/resolver.rs:65-88).  Simplification: its I/O error (canonicalising a
  directory) is not modelled; it would abort the resolve like a fetch error. -/
  sat : P → S → Bool
  /-- `nassun.resolve_spec(spec)` followed by `package.corgi_metadata()` (resolver.rs:95-101, 193-204);
  `none` is an error of either.  The answer is assumed not to change during one resolve. -/
  fetch : S → Option (P × Manifest N)
  /-- `a.package.name() <= b.package.name()` (resolver.rs:254) -/
  nameLe : P → P → Bool
  /-- `concurrency` -/
  concurrency : Nat

/-- A lockfile entry as the resolver sees it: its path, the result of `LockfileNode::to_package`
(lockfile.rs:160-220; outer `none` = error, inner `none` = no package can be derived) and the manifest made from it
(`From<LockfileNode> for CorgiManifest`, lockfile.rs:145-158). -/
structure LockEntry (N P : Type) where
  path : List N
  pkg : Option (Option P)
  manifest : Manifest N

/-- `Lockfile::packages()`.  Rust keys are path strings joined with "/node_modules/"; the model uses the path itself. -/
abbrev LockTree (N P : Type) := IMap (List N) (LockEntry N P)

/-- resolver.rs:30-37 `NodeDependency` (without the timing field) -/
structure Dep (N S : Type) where
  name : N
  spec : S
  ty : DepType
  node : Nat
  deriving DecidableEq

inductive ResolveErr where
  | fetchFailed | badManifest | lockEntry | underflow
  deriving DecidableEq, Repr

variable {N P S : Type} [DecidableEq N] [DecidableEq S]

/-- resolver.rs:278-301 `satisfy_dependency` -/
def satisfyDependency (env : Env N P S) (g : Graph N P S) (dep : Dep N S) : Option (Graph N P S × Nat) :=
  match g.findByName dep.node dep.name with
  | none => none
  | some x =>
    match g.pkg? x with
    | none => none   -- index panic; unreachable
    | some p =>
      if env.sat p dep.spec then
        let e := g.edges.length
        some ((g.addEdge ⟨dep.node, x, dep.spec, dep.ty⟩).modify dep.node
          (fun nd => { nd with deps := nd.deps.insert dep.name e }), x)
      else none

/-- resolver.rs:317-334: one probe of the loop: look up `path ++ [name]` (`rpath` is the path reversed).
`none`: no usable entry here, keep walking.  `some none`: error.  `some (some none)`: stop, nothing usable. -/
def lockProbe (env : Env N P S) (lock : LockTree N P) (name : N) (spec : S) (rpath : List N) :
    Option (Option (Option (P × LockEntry N P))) :=
  match lock.get? ((name :: rpath).reverse) with
  | none => none
  | some ent =>
    match ent.pkg with
    | none => some none
    | some none => none
    | some (some p) => if env.sat p spec then some (some (some (p, ent))) else some (some none)

/-- resolver.rs:311-342: the loop of `satisfy_from_lockfile`; `pop_back` on the path is `tail` of the reversed path.
Outer `none`: error; inner `none`: not found / not usable. -/
def lockWalk (env : Env N P S) (lock : LockTree N P) (name : N) (spec : S) :
    List N → Option (Option (P × LockEntry N P))
  | [] => (lockProbe env lock name spec []).getD (some none)
  | x :: r =>
    match lockProbe env lock name spec (x :: r) with
    | some res => res
    | none => lockWalk env lock name spec r

/-- resolver.rs:303-344 `satisfy_from_lockfile` -/
def satisfyFromLockfile (env : Env N P S) (lock : LockTree N P) (g : Graph N P S) (dep : Dep N S) :
    Option (Option (P × LockEntry N P)) :=
  lockWalk env lock dep.name dep.spec (g.nodePath dep.node).reverse

/-- resolver.rs:379-391: does something in `curr`'s subtree already rely on the package of that name visible at
`curr`, while that package does not satisfy the request? -/
def conflictBelow (env : Env N P S) (g : Graph N P S) (curr : Nat) (name : N) (spec : S) : Bool :=
  match g.resolveDep curr name with
  | none => false
  | some r =>
    g.edges.any fun e => e.dst == r && g.isAncestor curr e.src &&
      !(match g.pkg? r with | some p => env.sat p spec | none => false)

/-- resolver.rs:393-397: does `curr` itself require that name with a specifier the new package fails? -/
def conflictOwn (env : Env N P S) (g : Graph N P S) (curr : Nat) (name : N) (pkg : P) : Bool :=
  match (g.nodes[curr]?).bind (fun nd => nd.reqs.get? name) with
  | none => false
  | some (req, _) => !env.sat pkg req

/-- resolver.rs:372-411: the climbing loop of `place_child`, over the parent chain of the dependent. -/
def climb (env : Env N P S) (g : Graph N P S) (name : N) (spec : S) (pkg : P) (locked : Option (List N)) :
    Nat → List Nat → Nat
  | target, [] => target
  | target, curr :: rest =>
    if conflictBelow env g curr name spec then target
    else if conflictOwn env g curr name pkg then target
    else if locked = some (g.nodePath curr) then curr
    else climb env g name spec pkg locked curr rest

/-- Result of `place_child`: new graph, index of the new node, and the node that was overwritten, if any. -/
structure Placed (N P S : Type) where
  graph : Graph N P S
  child : Nat
  clobbered : Option Nat

/-- resolver.rs:346-440 `place_child`.  `none`: a dependency specifier in the manifest does not parse. -/
def placeChild (env : Env N P S) (g : Graph N P S) (dep : Dep N S) (pkg : P) (m : Manifest N)
    (targetPath : Option (List N)) : Option (Placed N P S) :=
  match Node.new env.parse dep.name pkg m false with
  | none => none
  | some nd =>
    let c := g.nodes.length
    let e := g.edges.length
    let g1 := (g.addNode nd).addEdge ⟨dep.node, c, dep.spec, dep.ty⟩
    let target := climb env g1 dep.name dep.spec pkg (targetPath.map List.dropLast) dep.node (g1.ancestors dep.node)
    let g2 := g1.modify dep.node (fun nd => { nd with deps := nd.deps.insert dep.name e })
    let g3 := g2.modify c (fun nd => { nd with parent := some target })
    let old := g3.child? target dep.name
    let g4 := g3.modify target (fun nd => { nd with children := nd.children.insert dep.name c })
    some ⟨g4, c, old⟩

/-- Local state of `run_resolver` (resolver.rs:62-103).
* `chan` – sent on `package_sink` but not yet taken by the stream;
* `fetches` – the de-duplication table; `active` – specifiers being fetched inside `buffer_unordered`;
* `ready` – fetches that have completed and wait in the chunk being collected by `ready_chunks`, in order;
* `clobbers` – ghost: how often `place_child` reported a clobbered entry. -/
structure RState (N P S : Type) where
  graph : Graph N P S
  q : List Nat
  inFlight : Nat
  chan : List (Dep N S)
  fetches : IMap S (List (Dep N S))
  active : List S
  ready : List S := []
  clobbers : Nat := 0

/-- resolver.rs:118-180: handle one requirement of a queued node. -/
def processReq (env : Env N P S) (lock : Option (LockTree N P)) (s : RState N P S) (dep : Dep N S) :
    Except ResolveErr (RState N P S) :=
  match satisfyDependency env s.graph dep with
  | some (g, _) => .ok { s with graph := g }
  | none =>
    let viaLock :=
      match lock with
      | none => some none
      | some l => satisfyFromLockfile env l s.graph dep
    match viaLock with
    | none => .error .lockEntry
    | some (some (p, ent)) =>
      match placeChild env s.graph dep p ent.manifest (some ent.path) with
      | none => .error .badManifest
      | some r => .ok { s with graph := r.graph, q := s.q ++ [r.child],
                               clobbers := s.clobbers + (if r.clobbered.isSome then 1 else 0) }
    | some none => .ok { s with inFlight := s.inFlight + 1, chan := s.chan ++ [dep] }

/-- The `NodeDependency`s of a node (resolver.rs:108-124); the `names` set is redundant because
`dependency_reqs` is a map. -/
def nodeDeps (g : Graph N P S) (i : Nat) : List (Dep N S) :=
  match g.nodes[i]? with
  | none => []
  | some nd => nd.reqs.map fun r => ⟨r.1, r.2.1, r.2.2, i⟩

/-- `for` loop with early exit through `?`. -/
def foldE {σ α ε : Type} (f : σ → α → Except ε σ) : σ → List α → Except ε σ
  | s, [] => .ok s
  | s, a :: l =>
    match f s a with
    | .ok s' => foldE f s' l
    | .error e => .error e

/-- resolver.rs:107-182: one iteration of `while let Some(node_idx) = q.pop_front()`. -/
def popStep (env : Env N P S) (lock : Option (LockTree N P)) (s : RState N P S) :
    Option (Except ResolveErr (RState N P S)) :=
  match s.q with
  | [] => none
  | i :: q => some (foldE (processReq env lock) { s with q := q } (nodeDeps s.graph i))

/-- resolver.rs:78-103: the stream takes one dependency from the channel; a specifier already being fetched is only
queued in the table, otherwise its fetch starts.  `try_lock` always succeeds: the table is only locked for the
duration of one statement (resolver.rs:194) by the same task that polls the stream. -/
def pullStep (env : Env N P S) (s : RState N P S) : Option (RState N P S) :=
  if s.q.isEmpty && s.inFlight != 0 && decide (s.active.length < env.concurrency) then
    match s.chan with
    | [] => none
    | dep :: chan =>
      match s.fetches.get? dep.spec with
      | some l => some { s with chan := chan, fetches := s.fetches.insert dep.spec (l ++ [dep]) }
      | none => some { s with chan := chan, fetches := s.fetches.insert dep.spec [dep],
                              active := s.active ++ [dep.spec] }
  else none

/-- resolver.rs:95-103: a running fetch completes and joins the chunk under collection (`ready_chunks` closes a chunk
at `concurrency` items; further completed fetches stay inside `buffer_unordered`, i.e. in `active`).  The stream is
only polled inside `package_stream.next().await`. -/
def completeStep (env : Env N P S) (s : RState N P S) (spec : S) : Option (RState N P S) :=
  if s.q.isEmpty && s.inFlight != 0 && decide (s.ready.length < env.concurrency) && decide (spec ∈ s.active) then
    some { s with active := s.active.erase spec, ready := s.ready ++ [spec] }
  else none

/-- resolver.rs:221-244: serve one waiting dependency with a fetched package. -/
def serveDep (env : Env N P S) (p : P) (m : Manifest N) (s : RState N P S) (dep : Dep N S) :
    Except ResolveErr (RState N P S) :=
  match satisfyDependency env s.graph dep with
  | some (g, _) => .ok { s with graph := g }
  | none =>
    match placeChild env s.graph dep p m none with
    | none => .error .badManifest
    | some r => .ok { s with graph := r.graph, q := s.q ++ [r.child],
                             clobbers := s.clobbers + (if r.clobbered.isSome then 1 else 0) }

/-- resolver.rs:193-245: handle one completed fetch of a chunk. -/
def deliverOne (env : Env N P S) (s : RState N P S) (spec : S) : Except ResolveErr (RState N P S) :=
  match env.fetch spec with
  | none => .error .fetchFailed
  | some (p, m) =>
    let s := { s with ready := s.ready.erase spec }
    match s.fetches.get? spec with
    | none => .ok s
    | some deps =>
      if deps.length ≤ s.inFlight then
        foldE (serveDep env p m)
          { s with fetches := s.fetches.erase spec, inFlight := s.inFlight - deps.length } deps
      else .error .underflow

/-- resolver.rs:248-257: shallow nodes first, then by package name. -/
def queueLe (env : Env N P S) (g : Graph N P S) (a b : Nat) : Bool :=
  if g.depth a < g.depth b then true
  else if g.depth a = g.depth b then
    match g.pkg? a, g.pkg? b with
    | some pa, some pb => env.nameLe pa pb
    | _, _ => true
  else false

/-- resolver.rs:184-258: the collected chunk is handed over and handled, fetch by fetch. -/
def deliverStep (env : Env N P S) (s : RState N P S) : Option (Except ResolveErr (RState N P S)) :=
  if s.q.isEmpty && s.inFlight != 0 && !s.ready.isEmpty then
    some (match foldE (deliverOne env) s s.ready with
      | .ok s => .ok { s with q := sortBy (queueLe env s.graph) s.q }
      | .error e => .error e)
  else none

/-- What can happen next in `run_resolver`. -/
inductive REvent (S : Type) where
  /-- pop the next queued node and handle its requirements -/
  | pop
  /-- the stream takes the next dependency from the channel -/
  | pull
  /-- a running fetch completes -/
  | complete (spec : S)
  /-- the collected chunk of completed fetches is handled -/
  | deliver

/-- One transition; `none` means the event cannot happen in this state. -/
def rstep (env : Env N P S) (lock : Option (LockTree N P)) (s : RState N P S) :
    REvent S → Option (Except ResolveErr (RState N P S))
  | .pop => popStep env lock s
  | .pull => (pullStep env s).map .ok
  | .complete spec => (completeStep env s spec).map .ok
  | .deliver => deliverStep env s

/-- Initial state: just the root (maintainer.rs:352-359, resolver.rs:62-67). -/
def rinit (root : Node N P S) : RState N P S :=
  { graph := ⟨[root], []⟩, q := [0], inFlight := 0, chan := [], fetches := [], active := [] }

/-- The loop condition of resolver.rs:106 is false. -/
def RState.done (s : RState N P S) : Bool := s.q.isEmpty && s.inFlight == 0

/-- Run a whole schedule. `none`: an event was not possible. -/
def rrun (env : Env N P S) (lock : Option (LockTree N P)) :
    RState N P S → List (REvent S) → Option (Except ResolveErr (RState N P S))
  | s, [] => some (.ok s)
  | s, e :: es =>
    match rstep env lock s e with
    | none => none
    | some (.error x) => some (.error x)
    | some (.ok s') => rrun env lock s' es

end Oro
