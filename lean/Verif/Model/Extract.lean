import Verif.Model.Hoisted
/-
The extraction of the hoisted linker as it runs: several packages at a time, file by file
(/repo/crates/node-maintainer/src/linkers/hoisted.rs:273-338, crates/nassun/src/tarball.rs:180-345).
`Model/Hoisted.lean` does one package after the other; `Props/Extract.lean` shows that this makes no difference.
-/

set_option linter.unusedSectionVars false

namespace Oro
namespace Hoisted
variable {P S V I : Type}

/-- tarball.rs:248-335 (`mkdirp(parent)`, then `create_new`): write one entry; folders above it are made if missing. It fails
if something that is no folder is in the way, or if there is something already (for a folder: something else than a folder).
Making the folders is one step: `create_dir_all` does not mind other packages making the same folders at the same time, and the
plain `create_dir` of tarball.rs:533 is only reached inside the package's own folder (`created` belongs to one package). -/
def writeAt (t : Tree) (p : Loc) (e : Entry) : Option Tree :=
  if blocked t p then none
  else if t p ≠ none ∧ ¬ (e = .dir ∧ t p = some .dir) then none
  else some fun q => if q = p then some e else dirsAbove t p q

/-- progress of the concurrent `extract`: the next package to be started, and for the ones under way what they still write -/
structure Run where
  tree : Tree
  next : Nat := 0
  tasks : List (Nat × List (Loc × Entry)) := []
  pending : List Nat := []
  count : Nat := 0

inductive XEvent where
  /-- the stream starts the next package -/
  | start
  /-- the `k`-th of the packages under way goes on -/
  | work (k : Nat)

/-- hoisted.rs:279-338: one step. `ws x` are the entries of package `x` in the order in which they are written; `cap` is the
`concurrency` option (0: no limit, as in `try_for_each_concurrent`). Packages are started in index order; the first thing done
is the existence check. Outer `none`: the event cannot happen now. Inner `none`: extraction fails. -/
def xstep (pk : Pkgs P) (ws : P → List (Loc × Entry)) (cap : Nat) (g : Graph Str P S) (x : Run) : XEvent → Option (Option Run)
  | .start =>
    if cap = 0 ∨ x.tasks.length < cap then
      match g.nodes[x.next]? with
      | none => none
      | some nd =>
        if x.next = 0 ∨ x.tree (targetDir g x.next) ≠ none then some (some { x with next := x.next + 1 })
        else some (some { x with
          next := x.next + 1
          tasks := x.tasks ++ [(x.next, (ws nd.pkg).map fun w => (targetDir g x.next ++ w.1, w.2))] })
    else none
  | .work k =>
    match x.tasks[k]? with
    | none => none
    | some (i, []) =>
      match g.nodes[i]? with
      | none => none
      | some nd => some (some { x with
          tasks := x.tasks.eraseIdx k
          pending := if pk.scripts nd.pkg || !(pk.bins nd.pkg).isEmpty then x.pending ++ [i] else x.pending
          count := x.count + 1 })
    | some (i, w :: rest) =>
      some ((writeAt x.tree w.1 w.2).map fun t => { x with tree := t, tasks := x.tasks.set k (i, rest) })

/-- hoisted.rs:253: `mkdirp(node_modules)` comes first -/
def xinit (t : Tree) : Run := { tree := fun p => if p = [] then some .dir else t p }

/-- all packages are done -/
def Run.done (g : Graph Str P S) (x : Run) : Bool := decide (g.nodes.length ≤ x.next) && x.tasks.isEmpty

end Hoisted
end Oro
