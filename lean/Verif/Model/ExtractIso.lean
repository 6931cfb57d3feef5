import Verif.Model.Extract
import Verif.Model.Isolated
/-
The extraction of the isolated linker as it runs: several packages at a time, each file by file and then link by link
(/repo/crates/node-maintainer/src/linkers/isolated.rs:366-451, 506-559, crates/nassun/src/tarball.rs:180-345).
`Model/Isolated.lean` does one package after the other; `Props/ExtractIso.lean` shows that this makes no difference.
-/

set_option linter.unusedSectionVars false

namespace Oro
namespace Iso
open Hoisted (Entry Tree Pkgs Disk writeAt XEvent)

variable {P S V I : Type}

/-- a package under way: what it still writes, whether its manifest is still to be looked at, and the dependencies it still links -/
structure ITask where
  pkg : Nat
  writes : List (Loc × Entry)
  unread : Bool
  links : List Nat

/-- progress of the concurrent `extract`: the disk, the cache of `mkdirp` (shared by all), the next package to be started, the ones
under way, `pending_rebuild`, `pending_bin_link` and the count that is returned -/
structure IRun where
  tree : Tree
  cache : List Loc := [[]]
  next : Nat := 0
  tasks : List ITask := []
  rebuild : List Nat := []
  bins : List Nat := []
  count : Nat := 0

/-- isolated.rs:383-411: a package is started; the first thing done is the existence check. The project itself is only linked. -/
def begin (ws : P → List (Loc × Entry)) (v : Env) (g : Graph Str P S) (x : IRun) (nd : Node Str P S) : ITask :=
  if x.next = 0 ∨ x.tree (home v g x.next) ≠ none then ⟨x.next, [], false, depsOf g x.next⟩
  else ⟨x.next, (ws nd.pkg).map fun w => (home v g x.next ++ w.1, w.2), true, depsOf g x.next⟩

/-- isolated.rs:383-447: one step. `ws x` are the entries of package `x` in the order in which they are written; `cap` is the
`concurrency` option (0: no limit). A package writes its files (tarball.rs:248-335), then its manifest is read and noted
(isolated.rs:415-430), then its dependencies are linked one by one (isolated.rs:514-557; looking, making the folder and linking is
one step). Outer `none`: the event cannot happen now. Inner `none`: extraction fails. -/
def istep (pk : Pkgs P) (ws : P → List (Loc × Entry)) (v : Env) (cap : Nat) (g : Graph Str P S) (x : IRun) : XEvent → Option (Option IRun)
  | .start =>
    if cap = 0 ∨ x.tasks.length < cap then
      match g.nodes[x.next]? with
      | none => none
      | some nd => some (some { x with next := x.next + 1, tasks := x.tasks ++ [begin ws v g x nd] })
    else none
  | .work k =>
    match x.tasks[k]? with
    | none => none
    | some ⟨i, w :: rest, b, ls⟩ =>
      some ((writeAt x.tree w.1 w.2).map fun t => { x with tree := t, tasks := x.tasks.set k ⟨i, rest, b, ls⟩ })
    | some ⟨i, [], true, ls⟩ =>
      match g.nodes[i]? with
      | none => none
      | some nd => some (some { x with
          tasks := x.tasks.set k ⟨i, [], false, ls⟩
          rebuild := if pk.scripts nd.pkg then x.rebuild ++ [i] else x.rebuild
          bins := if (pk.bins nd.pkg).isEmpty then x.bins else x.bins ++ [i]
          count := x.count + 1 })
    | some ⟨i, [], false, j :: rest⟩ =>
      some ((linkDep v g i (x.tree, x.cache) j).map fun y => { x with tree := y.1, cache := y.2, tasks := x.tasks.set k ⟨i, [], false, rest⟩ })
    | some ⟨_, [], false, []⟩ => some (some { x with tasks := x.tasks.eraseIdx k })

/-- isolated.rs:354: `mkdirp(node_modules)` comes first -/
def iinit (t : Tree) : IRun := { tree := put t [] .dir }

/-- all packages are done -/
def IRun.done (g : Graph Str P S) (x : IRun) : Bool := decide (g.nodes.length ≤ x.next) && x.tasks.isEmpty

end Iso
end Oro
