import Verif.Model.Isolated
import Verif.Model.InstallRun
/-
/repo/crates/node-maintainer/src/linkers/isolated.rs:338-451 `extract` and 506-559 `link_deps` once more, down to the accesses to the
file system and the cache: the extractions of `Model/TarRun.lean`, one for each package of the tree, each followed by linking the
package's dependencies, interleaved in any way.

(`Model/ExtractIso.lean` models the same functions with one step per written file and packages that are simply there.)

Simplification: extractions know nothing of symbolic links (`Props/StoreRun.lean` shows that none is where they read or write).
-/

set_option linter.unusedSectionVars false

namespace Oro
namespace Iso
open Hoisted (Tree XOpts Bytes)
variable {P S : Type}

/-- isolated.rs:400-411: the call of `extract_to_dir` for each package but the project; isolated.rs:355-367: files get out of the
cache as with the hoisted linker -/
def jobsFor (o : XOpts) (v : Env) (g : Graph Str P S) (fetch : P → Option Tar.Integrity × Option (List Tar.Ev)) : Nat → Option Tar.Job :=
  fun i => if i = 0 then none
    else g.nodes[i]?.map fun nd =>
      ⟨o.root ++ nmWord :: home v g i, o.cache, o.mode, (fetch nd.pkg).1, (fetch nd.pkg).2⟩

/-- How far a package is. `fresh`: was it extracted, and if so, has it scripts, has it commands? -/
inductive LPhase where
  /-- not looked at yet -/
  | waiting
  /-- being extracted -/
  | extracting
  /-- these dependencies are still to be linked -/
  | linking (fresh : Option (Bool × Bool)) (todo : List Nat)
  /-- the folder for the link to the first of them is to be made -/
  | making (fresh : Option (Bool × Bool)) (dep : Nat) (todo : List Nat)
  /-- the link is to be made -/
  | placing (fresh : Option (Bool × Bool)) (dep : Nat) (todo : List Nat)
  | finished (fresh : Option (Bool × Bool))
  /-- extracting it failed, there is no readable manifest in its folder, or a folder or link could not be made -/
  | failed
  deriving DecidableEq

/-- `extract` under way; `links`: the symbolic links below node_modules (paths relative to it); `cache`: `mkdir_cache`, shared -/
structure LRun where
  runs : Tar.Runs
  links : Loc → Option Loc
  cache : List Loc
  phase : Nat → LPhase

/-- before the first package; isolated.rs:354: node_modules was just made, with all above it -/
def LRun.init (o : XOpts) (fs : Tar.FS) : LRun := ⟨.init fs, fun _ => none, (o.root ++ [nmWord]).inits, fun _ => .waiting⟩

/-- what is below node_modules -/
def LRun.look (o : XOpts) (w : LRun) : Tree := fun p =>
  match w.links p with
  | some t => some (.link t)
  | none =>
    match w.runs.fs.files (o.root ++ nmWord :: p) with
    | some i => some (.file (w.runs.fs.content i))
    | none => if w.runs.fs.dirs (o.root ++ nmWord :: p) then some .dir else none

/-- isolated.rs:383-447: the next thing done for one package.  `build` reads a manifest and says whether the package has scripts and
whether it has commands.  The existence check and the first access of the extraction are one step (isolated.rs:407-411). -/
def LRun.step (env : Tar.Env) (build : Bytes → Option (Bool × Bool)) (o : XOpts) (v : Env) (g : Graph Str P S)
    (fetch : P → Option Tar.Integrity × Option (List Tar.Ev)) (w : LRun) (n : Nat) : LRun :=
  if n < g.nodes.length then
    match w.phase n with
    | .waiting =>
      match jobsFor o v g fetch n with
      -- isolated.rs:384-388: the project itself is only linked
      | none => { w with phase := Tar.upd w.phase n (.linking none (depsOf g n)) }
      | some j =>
        if w.runs.fs.taken j.dir then { w with phase := Tar.upd w.phase n (.linking none (depsOf g n)) }
        else { w with runs := w.runs.step env (jobsFor o v g fetch) n, phase := Tar.upd w.phase n .extracting }
    | .extracting =>
      match jobsFor o v g fetch n with
      | none => w
      | some j =>
        match w.runs.pcs n with
        | .failed => { w with phase := Tar.upd w.phase n .failed }
        | .done _ =>
          match (w.runs.fs.files (j.dir ++ [Tar.kPackageJson])).bind fun i => build (w.runs.fs.content i) with
          | none => { w with phase := Tar.upd w.phase n .failed }
          | some b => { w with phase := Tar.upd w.phase n (.linking (some b) (depsOf g n)) }
        | _ => { w with runs := w.runs.step env (jobsFor o v g fetch) n }
    | .linking x [] => { w with phase := Tar.upd w.phase n (.finished x) }
    -- isolated.rs:520-522
    | .linking x (d :: r) =>
      if existsAt v (w.look o) (entryFor v g n d) then { w with phase := Tar.upd w.phase n (.linking x r) }
      else { w with phase := Tar.upd w.phase n (.making x d r) }
    -- isolated.rs:530-531, linkers/mod.rs:483-514 (the same as the extractor's `mkdirp`, but with a shared cache)
    | .making x d r =>
      match Tar.mkdirp w.cache w.runs.fs (o.root ++ nmWord :: (entryFor v g n d).dropLast) with
      | none => { w with phase := Tar.upd w.phase n .failed }
      | some (c, fs) => { w with runs := { w.runs with fs := fs }, cache := c, phase := Tar.upd w.phase n (.placing x d r) }
    -- isolated.rs:532-552; a link can only be made in a folder
    | .placing x d r =>
      if w.look o (entryFor v g n d) ≠ none then { w with phase := Tar.upd w.phase n (.linking x r) }
      else if w.runs.fs.dirs (o.root ++ nmWord :: (entryFor v g n d).dropLast) then
        { w with
          links := Tar.upd w.links (entryFor v g n d) (some (diff (home v g d) (entryFor v g n d).dropLast))
          phase := Tar.upd w.phase n (.linking x r) }
      else { w with phase := Tar.upd w.phase n .failed }
    | _ => w
  else w

/-- a schedule: for which package the next thing is done -/
def LRun.run (env : Tar.Env) (build : Bytes → Option (Bool × Bool)) (o : XOpts) (v : Env) (g : Graph Str P S)
    (fetch : P → Option Tar.Integrity × Option (List Tar.Ev)) (w : LRun) (sched : List Nat) : LRun :=
  sched.foldl (LRun.step env build o v g fetch) w

end Iso
end Oro
