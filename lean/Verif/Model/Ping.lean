import Verif.Model.Requests
import Verif.Model.Json
/-
Model of `oro ping`: /repo/src/commands/ping.rs:29-58 and /repo/crates/oro-client/src/api/ping.rs:3-14.
The lines written to the log (the standard error) are not modelled; the time it took is a parameter.
-/

set_option linter.unusedSectionVars false

namespace Oro
namespace Ping
open Auth Npm

/-- the last two parts of the path: a dash, and "ping" -/
def kPing : Str := ['-', '/', 'p', 'i', 'n', 'g']
/-- "?write=true" -/
def kWrite : Str := ['?', 'w', 'r', 'i', 't', 'e', '=', 't', 'r', 'u', 'e']

/-- api/ping.rs:7-8: `registry.join` with that path and query and the header -/
def request (registry : Url) : Request := ⟨registry, { registry with path := upToSlash registry.path ++ kPing, rest := kWrite }⟩

/-- ping.rs:29-58: what is printed (with `--json`: the registry, the time and what it answered), or `none` when the command
fails. `server`: the text of the answer to a request (api/ping.rs:9-12), `none` when it cannot be had or its status is an
error; `parse`: `serde_json::from_str`; `text`: printing an address -/
def ping (server : Request → Option Str) (parse : Str → Option Json) (text : Url → Str) (time : Str) (json : Bool) (registry : Url) :
    Option (Option (List (Str × Json))) :=
  match server (request registry) with
  | none => none
  | some payload =>
    if json then
      match parse payload with
      | none => none
      | some details => some (some [(['r', 'e', 'g', 'i', 's', 't', 'r', 'y'], .str (text registry)), (['t', 'i', 'm', 'e'], .num time),
          (['d', 'e', 't', 'a', 'i', 'l', 's'], details)])
    else some none

end Ping
end Oro
