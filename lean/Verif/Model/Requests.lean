import Verif.Model.Npm
import Verif.Model.UseCreds
/-
What a command asks registries for, and with which credentials: /repo/src/nassun_args.rs:56-75 (building the client),
/repo/crates/nassun/src/client.rs:56-70, 155-190, /repo/crates/nassun/src/fetch/npm.rs:94-159,
/repo/crates/oro-client/src/api/packument.rs and stream_external.rs.
-/

set_option linter.unusedSectionVars false

namespace Oro
namespace Npm
open Auth Startup

/-- lib.rs:155-166, nassun_args.rs:59-68: the registries of a command with this `--registry` and these values of
`scoped-registries` -/
def commandRegs (parse : Str → Option Url) (registry : Url) (values : List (Option Str)) : Outcome (IMap (Option Str) Url) :=
  match readAll (keyValue parse) (values.filterMap id) with
  | .ok l => .ok (registries (.default registry :: l.map fun p => .forScope p.1 p.2))
  | .err => .err
  | .panic => .panic

/-- a request: its address, and the registry in its `X-Oro-Registry` header -/
structure Request where
  reg : Url
  url : Url

/-- npm.rs:112-113, 141-142 `with_registry(..).packument(..)`; packument.rs:14, 44 -/
def packumentRequest (regs : IMap (Option Str) Url) (scope : Option Str) (name : Str) : Request :=
  ⟨pickRegistry regs scope, packumentUrl (pickRegistry regs scope) name⟩

/-- client.rs (oro-client) 42: the registry of a client nobody set one for; printed and parsed, its path is `/`.
nassun_args.rs:58-63 builds the commands' client so; without `client(..)` a library user's client has the default registry
(client.rs (nassun) 57, 163) -/
def clientRegistry (ownClient : Bool) (default : Option Url) : Url := if ownClient then npmjs else default.getD npmjs

/-- npm.rs:153-159, stream_external.rs:15-24 -/
def tarballRequest (ownClient : Bool) (default : Option Url) (tarball : Url) : Request := ⟨clientRegistry ownClient default, tarball⟩

/-- the Authorization header that is sent along -/
def sent (b64 : Str → Str) (creds : IMap Str Cred) (r : Request) : Option Header := attached b64 creds r.reg r.url

end Npm
end Oro
