import Verif.Model.Hoisted
import Verif.Model.TarRun
/-
/repo/crates/node-maintainer/src/linkers/hoisted.rs:242-338 `extract` once more, down to the accesses to the file system and the
cache: the extractions of `Model/TarRun.lean`, one for each package of the tree, interleaved in any way.

(`Model/Extract.lean` models the same function with one step per written file and packages that are simply there.)
-/

set_option linter.unusedSectionVars false

namespace Oro
namespace Hoisted
variable {P S : Type}

/-- what hoisted.rs:250-270 looks at -/
structure XOpts where
  /-- the project's folder -/
  root : Loc
  /-- is there a cache? -/
  cache : Bool
  /-- linkers/mod.rs `supports_reflink`, `supports_hardlink` -/
  reflinks : Bool
  hardlinks : Bool
  preferCopy : Bool

/-- hoisted.rs:257-269: how files get out of the cache -/
def XOpts.mode (o : XOpts) : Tar.Mode :=
  if o.cache then
    if o.reflinks then .reflink
    else if o.preferCopy then .copy
    else if o.hardlinks then .hardlink
    else .copy
  else .autoHardlink

/-- hoisted.rs:287-306: the call of `extract_to_dir` for each package but the root; `fetch` gives the integrity a package was
resolved with and what comes when its tarball is asked for -/
def jobsFor (o : XOpts) (g : Graph Str P S) (fetch : P → Option Tar.Integrity × Option (List Tar.Ev)) : Nat → Option Tar.Job :=
  fun i => if i = 0 then none
    else g.nodes[i]?.map fun nd =>
      ⟨o.root ++ nmWord :: targetDir g i, o.cache, o.mode, (fetch nd.pkg).1, (fetch nd.pkg).2⟩

/-- how far a package is -/
inductive XPhase where
  /-- not looked at yet -/
  | waiting
  /-- being extracted -/
  | extracting
  /-- its folder was there already -/
  | skipped
  /-- extracted; is it to be rebuilt? -/
  | extracted (rebuild : Bool)
  /-- extracting it failed, or there is no readable manifest in its folder -/
  | failed
  deriving DecidableEq

/-- `extract` under way -/
structure XRun where
  runs : Tar.Runs
  phase : Nat → XPhase

/-- before the first package -/
def XRun.init (fs : Tar.FS) : XRun := ⟨.init fs, fun _ => .waiting⟩

/-- hoisted.rs:310-336: the next thing done for one package.  `build` reads a manifest and says whether the package has scripts or
commands.  The existence check and the first access of the extraction are one step. -/
def XRun.step (env : Tar.Env) (build : Bytes → Option Bool) (jobs : Nat → Option Tar.Job) (w : XRun) (n : Nat) : XRun :=
  match jobs n with
  | none => w
  | some j =>
    match w.phase n with
    | .waiting =>
      if w.runs.fs.taken j.dir then { w with phase := Tar.upd w.phase n .skipped }
      else ⟨w.runs.step env jobs n, Tar.upd w.phase n .extracting⟩
    | .extracting =>
      match w.runs.pcs n with
      | .failed => { w with phase := Tar.upd w.phase n .failed }
      | .done _ =>
        match (w.runs.fs.files (j.dir ++ [Tar.kPackageJson])).bind fun i => build (w.runs.fs.content i) with
        | none => { w with phase := Tar.upd w.phase n .failed }
        | some b => { w with phase := Tar.upd w.phase n (.extracted b) }
      | _ => { w with runs := w.runs.step env jobs n }
    | _ => w

/-- a schedule: for which package the next thing is done -/
def XRun.run (env : Tar.Env) (build : Bytes → Option Bool) (jobs : Nat → Option Tar.Job) (w : XRun) (sched : List Nat) : XRun :=
  sched.foldl (XRun.step env build jobs) w

/-- hoisted.rs:246, 271-279: packages are taken from the tree in the order of their numbers, so a package does not start before
those with smaller numbers have -/
def ListOrder (jobs : Nat → Option Tar.Job) (sched : List Nat) : Prop :=
  ∀ pre n post, sched = pre ++ n :: post → (jobs n).isSome → ∀ m < n, (jobs m).isSome → m ∈ pre

end Hoisted
end Oro
