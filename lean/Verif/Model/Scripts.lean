import Verif.Model.Graph
/-
Model of the lifecycle script phase: /repo/crates/node-maintainer/src/linkers/mod.rs:147-360 (`run_scripts`,
`run_dep_script`).

`run_scripts` is modelled as a transition system.  Hash sets and hash maps have no specified order and the completion
order of concurrent scripts is up to the operating system; so a step may start *any* queued package and finish *any*
running one.
-/

set_option linter.unusedSectionVars false

namespace Oro
namespace Scripts

variable {N P S : Type}

/-- `petgraph::algo::has_path_connecting` (library function; edges point from the dependent to the dependency).
Modelled by recursion on the edge list: a path either avoids the first edge, or consists of a part before its first use
of that edge and a part after its last use.  `Proofs/Scripts.lean` shows that this is reachability. -/
def connects : List (Edge S) → Nat → Nat → Bool
  | [], i, j => i == j
  | e :: es, i, j => connects es i j || (connects es i e.src && connects es e.dst j)

/-- mod.rs:160-174: the pending packages that must run before `i` -/
def requires (g : Graph N P S) (pending : List Nat) (i : Nat) : List Nat :=
  pending.filter fun d => d != i && connects g.edges i d

/-- mod.rs:176-192: the pending packages waiting for `i` -/
def dependents (g : Graph N P S) (pending : List Nat) (i : Nat) : List Nat :=
  pending.filter fun d => d != i && connects g.edges d i

/-- What happens when the script of one package is run for one event (mod.rs:263-358). -/
structure Outcome where
  /-- `BuildManifest::from_path` of the installed package.json: `none` is an error, otherwise the scripts it has -/
  scripts : Option (List Str)
  /-- `OroScript::new(..)?.spawn()` succeeds -/
  spawn : Bool
  /-- both output streams are read without error -/
  output : Bool
  /-- `script.wait()`: the process ends with status 0 (oro-script/src/lib.rs:246-258) -/
  exit : Bool
  deriving DecidableEq, Repr

/-- mod.rs:246-360 `run_dep_script`; `true` is `Ok(())`.  `futures::try_join!` succeeds iff all three tasks do. -/
def runDepScript (optional : Bool) (event : Str) (o : Outcome) : Bool :=
  match o.scripts with
  | none => false
  | some ss =>
    if ss.contains event then
      if !o.spawn then optional
      else if o.output && o.exit then true else optional
    else true

/-- What an observer sees: the handling of a package begins / ends with `Ok` or `Err`. -/
inductive Ev where
  | start (i : Nat)
  | finish (i : Nat) (ok : Bool)
  deriving DecidableEq, Repr

/-- State of `run_scripts` after mod.rs:194. -/
structure St where
  /-- items in the channel -/
  queue : List Nat
  /-- futures held by `try_for_each_concurrent` -/
  running : List Nat
  /-- the `remaining` map -/
  rem : Nat → Option (List Nat)
  /-- `sender.close_channel()` was called -/
  closed : Bool
  /-- the result of the phase once it has ended (`true` is `Ok(())`) -/
  result : Option Bool
  /-- history -/
  log : List Ev

/-- `remaining.is_empty()`; its keys are pending packages -/
def remEmpty (pending : List Nat) (rem : Nat → Option (List Nat)) : Bool := pending.all fun i => (rem i).isNone

def upd (rem : Nat → Option (List Nat)) (k : Nat) (v : Option (List Nat)) : Nat → Option (List Nat) :=
  fun j => if j = k then v else rem j

/-- mod.rs:194-206: packages that need to wait for nobody are sent at once -/
def init (g : Graph N P S) (pending : List Nat) : St :=
  let rem := fun i => if i ∈ pending ∧ requires g pending i ≠ [] then some (requires g pending i) else none
  { queue := pending.filter fun i => requires g pending i == []
    running := []
    rem
    closed := remEmpty pending rem
    result := none
    log := [] }

/-- mod.rs:219-229, the body of `for dependent in dependents_set` -/
def release (i : Nat) (rq : (Nat → Option (List Nat)) × List Nat) (d : Nat) : (Nat → Option (List Nat)) × List Nat :=
  match rq.1 d with
  | none => rq
  | some ds =>
    let ds' := ds.filter (· != i)
    if ds' = [] then (upd rq.1 d none, rq.2 ++ [d]) else (upd rq.1 d (some ds'), rq.2)

/-- mod.rs:217-240: the end of one future.  Everything after the script itself runs without suspension (the only
`await` is the uncontended lock), so it is one step.  An error ends the phase: `try_for_each_concurrent` drops the
stream and the remaining futures. -/
def finish (g : Graph N P S) (pending : List Nat) (ok : Bool) (i : Nat) (s : St) : St :=
  let rq := (dependents g pending i).foldl (release i) (s.rem, s.queue)
  { queue := rq.2
    running := s.running.erase i
    rem := rq.1
    closed := s.closed || remEmpty pending rq.1
    result := if ok then none else some false
    log := s.log ++ [.finish i ok] }

/-- `try_for_each_concurrent(limit, ..)`: takes another item if fewer than `limit` futures are held; limit 0 means
unlimited (`NonZeroUsize::new`). -/
def mayStart (limit : Nat) (s : St) : Prop := limit = 0 ∨ s.running.length < limit

instance (limit : Nat) (s : St) : Decidable (mayStart limit s) := by unfold mayStart; infer_instance

/-- One step of the phase: `oks i` is the result of `run_dep_script` for package `i`. -/
inductive Step (g : Graph N P S) (pending : List Nat) (limit : Nat) (oks : Nat → Bool) : St → St → Prop where
  | start (s : St) (i : Nat) : s.result = none → i ∈ s.queue → mayStart limit s →
      Step g pending limit oks s { s with queue := s.queue.erase i, running := i :: s.running, log := s.log ++ [.start i] }
  | finish (s : St) (i : Nat) : s.result = none → i ∈ s.running →
      Step g pending limit oks s (finish g pending (oks i) i s)
  /-- the channel is closed and drained and no future is left -/
  | done (s : St) : s.result = none → s.queue = [] → s.running = [] → s.closed = true →
      Step g pending limit oks s { s with result := some true }

/-- Any number of steps, counted. -/
inductive Steps (g : Graph N P S) (pending : List Nat) (limit : Nat) (oks : Nat → Bool) : Nat → St → St → Prop where
  | refl (s) : Steps g pending limit oks 0 s s
  | tail {n s t u} : Steps g pending limit oks n s t → Step g pending limit oks t u → Steps g pending limit oks (n+1) s u

/-! ### all phases -/

/-- mod.rs:112, 116, 117: the events -/
def preinstall : Str := ['p','r','e','i','n','s','t','a','l','l']
@[inherit_doc preinstall] def install : Str := ['i','n','s','t','a','l','l']
@[inherit_doc preinstall] def postinstall : Str := ['p','o','s','t','i','n','s','t','a','l','l']

/-- a phase of `rebuild`: the scripts for an event, or linking the commands -/
inductive Phase where
  | scripts (event : Str)
  | bins
  deriving DecidableEq

/-- mod.rs:103-123 `rebuild`: the phases, in order -/
def rebuildPhases (ignoreScripts : Bool) : List Phase :=
  (if ignoreScripts then [] else [.scripts preinstall]) ++ [.bins] ++
  (if ignoreScripts then [] else [.scripts install, .scripts postinstall])

/-- what an observer sees of `rebuild` -/
inductive REv where
  | script (event : Str) (e : Ev)
  /-- the commands are linked, or that failed -/
  | bins (ok : Bool)
  deriving DecidableEq

/-- mod.rs:103-123 `rebuild`: the phases are done one after the other; `?` after each: the first failure ends it. A state of
it: what was seen so far, and the result if it has ended. `pending_rebuild` stays the same. -/
inductive Rebuild (g : Graph N P S) (pending : List Nat) (limit : Nat) (oks : Str → Nat → Bool) (binsOk : Bool) :
    List Phase → List REv → Option Bool → Prop where
  | done : Rebuild g pending limit oks binsOk [] [] (some true)
  | running {n s event ps} : Steps g pending limit (oks event) n (init g pending) s → s.result = none →
      Rebuild g pending limit oks binsOk (.scripts event :: ps) (s.log.map (.script event)) none
  | failed {n s event ps} : Steps g pending limit (oks event) n (init g pending) s → s.result = some false →
      Rebuild g pending limit oks binsOk (.scripts event :: ps) (s.log.map (.script event)) (some false)
  | next {n s event ps log r} : Steps g pending limit (oks event) n (init g pending) s → s.result = some true →
      Rebuild g pending limit oks binsOk ps log r →
      Rebuild g pending limit oks binsOk (.scripts event :: ps) (s.log.map (.script event) ++ log) r
  | linking {ps} : Rebuild g pending limit oks binsOk (.bins :: ps) [] none
  | notLinked {ps} : binsOk = false → Rebuild g pending limit oks binsOk (.bins :: ps) [.bins false] (some false)
  | linked {ps log r} : binsOk = true → Rebuild g pending limit oks binsOk ps log r →
      Rebuild g pending limit oks binsOk (.bins :: ps) (.bins true :: log) r

end Scripts
end Oro
