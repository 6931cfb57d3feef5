import Verif.Model.PackageSpec
import Verif.Model.Config
import Verif.Model.Mkdirp
/-
Model of /repo/crates/oro-script/src/lib.rs:177-215 (`set_all_paths`, `current_paths`, `get_existing_paths`): the PATH of
a script, on Unix.

Paths are lists of components, innermost first, as in the model of `mkdirp`. The package's path is absolute, since it
is canonicalised (lib.rs:27); the project's path is whatever the caller passes (linkers/mod.rs:285).
-/

set_option linter.unusedSectionVars false

namespace Oro
namespace ScriptPath
open Mkdirp (Path ancestors)

/-- the path of the project as it was given -/
structure Given where
  absolute : Bool
  comps : Path
  deriving DecidableEq

/-- a path as text -/
def text : Path → Str
  | [] => ['/']
  | c :: l => (if l = [] then [] else text l) ++ '/' :: c

/-- lib.rs:180: `dir.join("node_modules").join(".bin")` -/
def binDir (dir : Path) : Path :=
  ['.', 'b', 'i', 'n'] :: ['n', 'o', 'd', 'e', '_', 'm', 'o', 'd', 'u', 'l', 'e', 's'] :: dir

/-- lib.rs:182-184: stop after the project's folder -/
def isRoot (ws : Option Given) (dir : Path) : Bool := ws = some ⟨true, dir⟩

/-- lib.rs:178-187 over a list of folders -/
def pushDirs (ws : Option Given) : List Path → List Path
  | [] => []
  | d :: l => binDir d :: (if isRoot ws d then [] else pushDirs ws l)

/-- lib.rs:178-187: the folders added, in order -/
def added (ws : Option Given) (pkg : Path) : List Path := pushDirs ws (ancestors pkg)

/-- environment variables -/
abbrev Env := List (Str × Str)

/-- lib.rs:197: is it a path variable? -/
def isPathVar (name : Str) : Bool := Config.lower name = ['p', 'a', 't', 'h']

/-- lib.rs:205-214 `get_existing_paths` -/
def existing (env : Env) : List Str := (env.filter fun e => isPathVar e.1).flatMap fun e => PSpec.splitChar ':' e.2

/-- `std::env::join_paths`: fails if an entry contains a colon -/
def joinPaths (l : List Str) : Option Str :=
  if l.any fun s => s.contains ':' then none else some (List.intercalate [':'] l)

/-- lib.rs:177-192 `set_all_paths`: the environment of the script; `none`: an error -/
def scriptEnv (ws : Option Given) (pkg : Path) (env : Env) : Option Env :=
  (joinPaths (existing env ++ (added ws pkg).map text)).map fun v =>
    env.map fun e => if isPathVar e.1 then (e.1, v) else e

end ScriptPath
end Oro
