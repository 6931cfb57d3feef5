import Verif.Spec.InstallRun
/-
A whole install by the hoisted linker on the file system: pruning, making node_modules, extracting.  Linking commands and running
scripts follow and are not part of this model.
-/

set_option linter.unusedSectionVars false

namespace Oro
namespace Hoisted
variable {P S V I : Type} [DecidableEq S] [DecidableEq V] [DecidableEq I]

/-- hoisted.rs:37-240 `prune`: is what is at `p` removed?  What is outside node_modules is not looked at. -/
def removed (v : LockView P S V I) (g : Graph Str P S) (root : Loc) (recorded : Option (IMap Str (LNode V I))) (fs : Tar.FS) (p : Loc) : Bool :=
  match below (root ++ [nmWord]) p with
  | some r => ((prune v g ⟨seen id root fs, recorded⟩).tree r).isNone
  | none => false

/-- hoisted.rs:37-240 `prune`, on the file system: names are removed (hoisted.rs:60-104, 190-227); contents stay, for they may be in
the cache as well -/
def pruneFS (v : LockView P S V I) (g : Graph Str P S) (root : Loc) (recorded : Option (IMap Str (LNode V I))) (fs : Tar.FS) : Tar.FS :=
  { fs with
    files := fun p => if removed v g root recorded fs p then none else fs.files p
    dirs := fun p => !removed v g root recorded fs p && fs.dirs p }

/-- apply_args.rs:150-160, maintainer.rs:540-554, hoisted.rs:242-357: prune, then make node_modules (hoisted.rs:254; the linker's
`mkdir_cache` is empty), then extract; `none`: node_modules cannot be made.  `recorded` is what the meta file says, if it can be read. -/
def applyRun (env : Tar.Env) (build : Bytes → Option Bool) (v : LockView P S V I) (g : Graph Str P S) (o : XOpts)
    (fetch : P → Option Tar.Integrity × Option (List Tar.Ev)) (recorded : Option (IMap Str (LNode V I))) (sched : List Nat) (fs : Tar.FS) :
    Option XRun :=
  (Tar.mkdirp [] (pruneFS v g o.root recorded fs) (o.root ++ [nmWord])).map fun x =>
    (XRun.init x.2).run env build (jobsFor o g fetch) sched

/-- reapply.rs:21-31: `remove_dir_all` on node_modules -/
def clearedFS (root : Loc) (fs : Tar.FS) : Tar.FS :=
  { fs with
    files := fun p => if (root ++ [nmWord]).isPrefixOf p then none else fs.files p
    dirs := fun p => !(root ++ [nmWord]).isPrefixOf p && fs.dirs p }

end Hoisted
end Oro
