import Verif.Model.KdlConfig
import Verif.Model.Auth
import Verif.Model.Startup
/-
The way of credentials from a configuration file to the client: /repo/src/lib.rs:428-510 (the configuration becomes
arguments), lib.rs:170-190 (`--auth`, read by `parse_nested_key_value`), /repo/src/client_args.rs:71-91.
-/

set_option linter.unusedSectionVars false

namespace Oro
namespace Auth
open Startup

/-- clap's use of a value parser: every value is read, in order; the first failure is the result -/
def readAll {α : Type} (f : Str → Outcome α) : List Str → Outcome (List α)
  | [] => .ok []
  | s :: l => match f s with
    | .ok a => (match readAll f l with
      | .ok as => .ok (a :: as)
      | .err => .err
      | .panic => .panic)
    | .err => .err
    | .panic => .panic

/-- the credentials of a command whose `auth` option has these values -/
def commandCreds (parse : Str → Option Url) (values : List (Option Str)) : Outcome (Option (IMap Str Cred)) :=
  match readAll nested (values.filterMap id) with
  | .ok l => .ok (clientCreds parse l)
  | .err => .err
  | .panic => .panic

end Auth
end Oro
