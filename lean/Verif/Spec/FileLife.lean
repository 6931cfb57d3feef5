import Verif.Model.FileLife
import Verif.Spec.Further
/-
What C96 and C98 talk about: the life of a project, install after install, interrupted or not, down to the file operations.
-/

set_option linter.unusedSectionVars false

namespace Oro
namespace Hoisted
variable {P S V I : Type} [DecidableEq S] [DecidableEq V] [DecidableEq I]

/-- What an install of the tree `g` needs: a tree that can be installed, and of its packages those that pruning has not left in place
can be had. -/
structure Goods (env : Tar.Env) (build : Bytes → Option Bool) (pr : Bytes → Bytes) (pk : Pkgs P) (v : LockView P S V I) (g : Graph Str P S) (o : XOpts)
    (fetch : P → Option Tar.Integrity × Option (List Tar.Ev)) (tar : P → Bytes) (recorded : Option (IMap Str (LNode V I))) (fs : Tar.FS) : Prop where
  tree : Installable pk g
  packages : ∀ i nd j, i ≠ 0 → g.nodes[i]? = some nd → jobsFor o g fetch i = some j →
    (pruneFS v g o.root recorded fs).taken j.dir = false → Obtainable env j (tar nd.pkg) fs
  packed : ∀ (i : Nat) (nd : Node Str P S), i ≠ 0 → g.nodes[i]? = some nd → Packed pr (pk.content nd.pkg) (env.untar (tar nd.pkg)).1
  built : ∀ (i : Nat) (nd : Node Str P S), i ≠ 0 → g.nodes[i]? = some nd →
    Built build (env.untar (tar nd.pkg)).1 (pk.scripts nd.pkg || !(pk.bins nd.pkg).isEmpty)
  /-- what is read from a file does not depend on more than its content hash -/
  sight : ∀ c c', env.xxh c = env.xxh c' → pr c = pr c'
  reading : ∀ c c', env.xxh c = env.xxh c' → build c = build c'

/-- a machine whose files, folders and cache are in order -/
structure Machine (env : Tar.Env) (fs : Tar.FS) : Prop where
  proper : Tar.Proper fs
  sane : Tar.Sane fs
  honest : Tar.Honest env fs

/-- every package of the tree was dealt with -/
def Over (g : Graph Str P S) (w : XRun) : Prop :=
  ∀ i nd, i ≠ 0 → g.nodes[i]? = some nd → w.phase i = .skipped ∨ ∃ b, w.phase i = .extracted b

/-- hoisted.rs:60-104, 190-227: folders are removed entry by entry, so pruning may be interrupted when only some of what it removes
is gone -/
structure PartlyPruned (v : LockView P S V I) (g : Graph Str P S) (root : Loc) (recorded : Option (IMap Str (LNode V I))) (a b : Tar.FS) : Prop where
  proper : Tar.Proper b
  files : ∀ p, b.files p = a.files p ∨ (removed v g root recorded a p = true ∧ b.files p = none)
  dirs : ∀ p, b.dirs p = a.dirs p ∨ (removed v g root recorded a p = true ∧ b.dirs p = false)
  content : b.content = a.content
  store : b.store = a.store
  index : b.index = a.index
  next : b.next = a.next

/-- What becomes of `fs` when installing the tree `g` is tried, any number of times, and interrupted each time at any moment before the
meta file is written. -/
inductive Tried (env : Tar.Env) (build : Bytes → Option Bool) (pr : Bytes → Bytes) (pk : Pkgs P) (v : LockView P S V I) (g : Graph Str P S) (o : XOpts)
    (fetch : P → Option Tar.Integrity × Option (List Tar.Ev)) (tar : P → Bytes) (recorded : IMap Str (LNode V I)) (fs : Tar.FS) : Tar.FS → Prop
  | not : Tried env build pr pk v g o fetch tar recorded fs fs
  /-- interrupted while pruning -/
  | pruning {a b} : Tried env build pr pk v g o fetch tar recorded fs a → PartlyPruned v g o.root (some recorded) a b →
      Tried env build pr pk v g o fetch tar recorded fs b
  /-- interrupted while extracting: at any moment, in whatever order the accesses of the packages came -/
  | moment {a sched w} : Tried env build pr pk v g o fetch tar recorded fs a → Goods env build pr pk v g o fetch tar (some recorded) a →
      ListOrder (jobsFor o g fetch) sched → applyRun env build v g o fetch (some recorded) sched a = some w →
      Tried env build pr pk v g o fetch tar recorded fs w.runs.fs
  /-- and anything else may happen in between, if node_modules looks as before (commands apart) and the machine is in order -/
  | other {a b} : Tried env build pr pk v g o fetch tar recorded fs a → Machine env b →
      (∀ p, ¬ InBin p → seen pr o.root b p = seen pr o.root a p) → Tried env build pr pk v g o fetch tar recorded fs b

/-- The same for a first install (or one that finds no meta file). -/
inductive TriedAnew (env : Tar.Env) (build : Bytes → Option Bool) (v : LockView P S V I) (g : Graph Str P S) (o : XOpts)
    (fetch : P → Option Tar.Integrity × Option (List Tar.Ev)) (fs : Tar.FS) : Tar.FS → Prop
  | not : TriedAnew env build v g o fetch fs fs
  | pruning {a b} : TriedAnew env build v g o fetch fs a → PartlyPruned v g o.root none a b → TriedAnew env build v g o fetch fs b
  | moment {a sched w} : TriedAnew env build v g o fetch fs a → ListOrder (jobsFor o g fetch) sched →
      applyRun env build v g o fetch none sched a = some w → TriedAnew env build v g o fetch fs w.runs.fs

/-- The install of the tree `g` on `fs` goes well: it can begin, nothing fails at any moment, in whatever order the accesses of the
packages come, it comes to an end if every package is given its turns, and then what is below node_modules (commands apart) is exactly
what the tree asks for, and the machine is in order. -/
structure GoesWell (env : Tar.Env) (build : Bytes → Option Bool) (pr : Bytes → Bytes) (pk : Pkgs P) (v : LockView P S V I) (g : Graph Str P S) (o : XOpts)
    (fetch : P → Option Tar.Integrity × Option (List Tar.Ev)) (recorded : Option (IMap Str (LNode V I))) (fs : Tar.FS) : Prop where
  begins : ∀ sched, ∃ w, applyRun env build v g o fetch recorded sched fs = some w
  nothing_fails : ∀ sched w, ListOrder (jobsFor o g fetch) sched → applyRun env build v g o fetch recorded sched fs = some w →
    ∀ i nd, i ≠ 0 → g.nodes[i]? = some nd → w.phase i ≠ .failed
  ends : ∀ s : Nat → Nat, (∀ m, ListOrder (jobsFor o g fetch) ((List.range m).map s)) →
    (∀ i nd, i ≠ 0 → g.nodes[i]? = some nd → ∀ N, ∃ m, N ≤ m ∧ s m = i) →
    ∃ M, ∀ m, M ≤ m → ∀ w, applyRun env build v g o fetch recorded ((List.range m).map s) fs = some w → Over g w
  right : ∀ sched w, ListOrder (jobsFor o g fetch) sched → applyRun env build v g o fetch recorded sched fs = some w → Over g w →
    Installed pk g (seen pr o.root w.runs.fs) ∧ Machine env w.runs.fs

/-- `Kept … g fs rec`: the project has been kept by orogene, and now its tree is `g`, the disk is `fs`, and the meta file says `rec`. -/
inductive Kept (env : Tar.Env) (build : Bytes → Option Bool) (pr : Bytes → Bytes) (pk : Pkgs P) (v : LockView P S V I) (o : XOpts)
    (fetch : P → Option Tar.Integrity × Option (List Tar.Ev)) (tar : P → Bytes) : Graph Str P S → Tar.FS → IMap Str (LNode V I) → Prop
  /-- the first install: whatever is in node_modules, there is no meta file -/
  | first {g fs recorded sched w} : Machine env fs → (∀ q, q <+: o.root ++ [nmWord] → fs.files q = none) →
      Goods env build pr pk v g o fetch tar none fs → ListOrder (jobsFor o g fetch) sched →
      applyRun env build v g o fetch none sched fs = some w → Over g w → Recorded v g (some recorded) →
      Kept env build pr pk v o fetch tar g w.runs.fs recorded
  /-- a further one, of a tree whose changes pruning notices, perhaps after having been interrupted (C98) -/
  | next {g0 g1 fs fs1 rec0 rec1 sched w} : Kept env build pr pk v o fetch tar g0 fs rec0 → Noticed pk v g0 g1 rec0 →
      Tried env build pr pk v g1 o fetch tar rec0 fs fs1 →
      Goods env build pr pk v g1 o fetch tar (some rec0) fs1 → ListOrder (jobsFor o g1 fetch) sched →
      applyRun env build v g1 o fetch (some rec0) sched fs1 = some w → Over g1 w → Recorded v g1 (some rec1) →
      Kept env build pr pk v o fetch tar g1 w.runs.fs rec1
  /-- anything else may happen on the machine (commands being linked, other projects being installed, the cache being changed), if
  node_modules looks as before (commands apart) and the machine is in order -/
  | other {g fs fs' recorded} : Kept env build pr pk v o fetch tar g fs recorded → Machine env fs' →
      (∀ p, ¬ InBin p → seen pr o.root fs' p = seen pr o.root fs p) → Kept env build pr pk v o fetch tar g fs' recorded

end Hoisted
end Oro
