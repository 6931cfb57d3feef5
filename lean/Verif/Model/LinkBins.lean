import Verif.Model.Extract
/-
`link_bins` of the hoisted linker as it runs: several packages at a time, each of its steps on its own
(/repo/crates/node-maintainer/src/linkers/hoisted.rs:359-455, linkers/mod.rs:444-514). `Model/Hoisted.lean` does one command
after the other. Not modelled: the permissions of the command's file, and Windows.
-/

set_option linter.unusedSectionVars false

namespace Oro
namespace Hoisted
variable {P S V I : Type}

/-- where the work on one command is (hoisted.rs:413-449): its steps that look at or change the disk or the cache of known
folders. The work is done on threads, so those of different packages mix. -/
inductive LPhase where
  /-- 416: does the file exist? -/
  | start
  /-- mod.rs:487: is the folder known? -/
  | check
  /-- mod.rs:488-493: is the folder above it known? -/
  | parent
  /-- mod.rs:495 `create_dir` -/
  | create
  /-- mod.rs:502 `create_dir_all`, which does not mind others making the same folders -/
  | createAll
  /-- mod.rs:501, 509-511: folders to be put into the cache -/
  | insert (l : List Loc)
  /-- hoisted.rs:419: is there a command already? -/
  | look
  /-- hoisted.rs:420-438 -/
  | remove
  /-- mod.rs:472 `symlink` -/
  | link
  deriving DecidableEq

/-- One step of the work on command `b` of the package in folder `target`: the disk, the cache, and what comes next (`none`: the
command is done). Outer `none`: it fails, and so does `link_bins`. -/
def lcmd (target : Loc) (b : Str × Loc) (t : Tree) (cache : List Loc) : LPhase → Option (Tree × List Loc × Option LPhase)
  | .start => some (t, cache, if t (target ++ b.2) = none then none else some .check)
  | .check => some (t, cache, if binDir target ∈ cache then some .look else some .parent)
  | .parent => some (t, cache, if (binDir target).dropLast ∈ cache then some .create else some .createAll)
  | .create =>
    if t (binDir target).dropLast = some .dir ∧ t (binDir target) = none then
      some (fun q => if q = binDir target then some .dir else t q, cache, some (.insert [binDir target]))
    else none
  | .createAll => (writeAt t (binDir target) .dir).map fun t' => (t', cache, some (.insert (binDir target).inits.reverse))
  | .insert [] => some (t, cache, some .look)
  | .insert (q :: l) => some (t, q :: cache, some (.insert l))
  | .look => some (t, cache, if t (binDir target ++ [b.1]) = none then some .link else some .remove)
  | .remove =>
    if t (binDir target ++ [b.1]) = none then none
    else some (fun q => if (binDir target ++ [b.1]).isPrefixOf q then none else t q, cache, some .link)
  | .link =>
    if t (binDir target) = some .dir ∧ t (binDir target ++ [b.1]) = none then
      some (fun q => if q = binDir target ++ [b.1] then some (.link (target ++ b.2)) else t q, cache, none)
    else none

/-- a package under way: its commands still to be done, and where the work on the first one is -/
structure LTask where
  pkg : Nat
  todo : List (Str × Loc)
  phase : LPhase

/-- progress of `link_bins`; `queue`: the packages not started -/
structure LRun where
  tree : Tree
  cache : List Loc
  queue : List Nat
  tasks : List LTask := []

/-- hoisted.rs:377-452: one step; `cap` is the `concurrency` option (0: no limit). Outer `none`: the event cannot happen now.
Inner `none`: `link_bins` fails. The commands are those of the manifest the package was unpacked with. -/
def lstep (pk : Pkgs P) (cap : Nat) (g : Graph Str P S) (x : LRun) : XEvent → Option (Option LRun)
  | .start =>
    if cap = 0 ∨ x.tasks.length < cap then
      match x.queue with
      | [] => none
      | i :: rest =>
        if i = 0 then some (some { x with queue := rest })
        else match g.nodes[i]? with
          | none => some (some { x with queue := rest })
          | some nd => some (some { x with queue := rest, tasks := x.tasks ++ [⟨i, pk.bins nd.pkg, .start⟩] })
    else none
  | .work k =>
    match x.tasks[k]? with
    | none => none
    | some ⟨_, [], _⟩ => some (some { x with tasks := x.tasks.eraseIdx k })
    | some ⟨i, b :: rest, ph⟩ =>
      some ((lcmd (targetDir g i) b x.tree x.cache ph).map fun r =>
        { x with
          tree := r.1
          cache := r.2.1
          tasks := x.tasks.set k (match r.2.2 with | some ph' => ⟨i, b :: rest, ph'⟩ | none => ⟨i, rest, .start⟩) })

/-- hoisted.rs:359-377: `node_modules/.bin` is removed; `order` is the order in which the set of pending packages is gone through;
the cache knows node_modules since `extract` (hoisted.rs:254) -/
def linit (order : List Nat) (t : Tree) : LRun := { tree := fun p => if cleared p then none else t p, cache := [[]], queue := order }

/-- all packages are done -/
def LRun.done (x : LRun) : Bool := x.queue.isEmpty && x.tasks.isEmpty

end Hoisted
end Oro
