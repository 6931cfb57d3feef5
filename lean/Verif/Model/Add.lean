import Verif.Model.Fetch
import Verif.Model.Cli
/-
Model of /repo/src/commands/add.rs:46-93: the requirement that `oro add` writes for a package asked for.
-/

set_option linter.unusedSectionVars false

namespace Oro
namespace Add
open PSpec Nassun Fetch

variable {V R U I : Type} [DecidableEq V]

/-- add.rs:70-76: the request of the specifier is replaced -/
def withRequest (q : VersionSpec V R) : PackageSpec V R U → PackageSpec V R U
  | .npm sc n _ => .npm sc n (some q)
  | s => s

/-- add.rs:53-86: name and requirement of a package asked for by the text `typed`; `pre`: the option `--prefix` -/
def addText (e : FetchEnv V R U I) (pre typed : Str) : Out (Str × Str) :=
  match parse e.spec typed with
  | .error => .err
  | .panic => .panic
  | .ok s =>
    (resolveSpec e s).bind fun r =>
    match s.target with
    | .alias _ _ => .panic
    | .git i => .ok (r.1, i.show e.spec)
    | .dir p => .ok (r.1, p)
    | .npm _ _ _ =>
      match r.2 with
      | .npm _ v _ _ => .ok (r.1, (s.modifyTarget (withRequest (.tag (pre ++ e.spec.showV v)))).requested e.spec)
      | _ => .panic

/-- add.rs:52-93: all packages asked for; the first failure ends it -/
def addTexts (e : FetchEnv V R U I) (pre : Str) : List Str → Out (List (Str × Str))
  | [] => .ok []
  | t :: l => (addText e pre t).bind fun x => (addTexts e pre l).bind fun xs => .ok (x :: xs)

end Add
end Oro
