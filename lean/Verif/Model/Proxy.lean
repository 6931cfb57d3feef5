import Verif.Base.Str
/-
Model of the proxy settings: /repo/crates/oro-client/src/client.rs:106-135 (settings of the builder), 146-163 (the client),
202-211 (domains without proxy) and /repo/src/client_args.rs:57-69 (from a command's options).

External crate `reqwest`, as documented: `Proxy::all` takes the user and the password of the address, decoded, if there is a
password, and `basic_auth` replaces them; a client with a proxy of its own does not look at the system's; `no_proxy` removes all
of them. Parsing addresses, decoding `%xx` and matching domains are parameters.
-/

set_option linter.unusedSectionVars false

namespace Oro
namespace Proxy

/-- a proxy's address; user and password as they are written in it -/
structure Addr where
  server : Str
  user : Str
  pass : Option Str
  deriving DecidableEq

/-- what the code gets from its libraries and its surroundings -/
structure Env where
  /-- `Url::parse` -/
  parse : Str → Option Addr
  /-- does `Proxy::all` take it? -/
  supported : Addr → Bool
  /-- percent decoding -/
  decode : Str → Str
  /-- the environment's NO_PROXY -/
  noProxy : Option Str
  /-- does a list of domains match a host? -/
  covers : Str → Str → Bool

/-- `reqwest::Proxy` -/
structure Proxy where
  server : Str
  auth : Option (Str × Str)
  skip : Option Str
  deriving DecidableEq

/-- client.rs:25-37: the fields for proxies -/
structure Builder where
  proxy : Bool
  server : Option Proxy
  domains : Option Str

/-- client.rs:39-57 `default` -/
def fresh : Builder := ⟨false, none, none⟩

/-- client.rs:202-211 `get_no_proxy_domain` -/
def skipOf (E : Env) (b : Builder) : Option Str :=
  match b.domains with
  | some d => if d ≠ [] then some d else E.noProxy
  | none => E.noProxy

/-- `Proxy::all`: credentials from the address -/
def addrAuth (E : Env) (a : Addr) : Option (Str × Str) := a.pass.map fun p => (E.decode a.user, E.decode p)

/-- client.rs:106-110 `proxy` -/
def setProxy (on : Bool) (b : Builder) : Builder := { b with proxy := on }

/-- client.rs:112-133 `proxy_url`; `none`: an error -/
def setUrl (E : Env) (url : Str) (b : Builder) : Option Builder :=
  match E.parse url with
  | none => none
  | some a =>
    if E.supported a then
      let auth := match a.pass with
        | some p => some (a.user, p)
        | none => addrAuth E a
      some { b with server := some ⟨a.server, auth, skipOf E b⟩, proxy := true }
    else none

/-- client.rs:135-139 `no_proxy_domain` -/
def setDomains (d : Str) (b : Builder) : Builder := { b with domains := some d }

/-- how a request to a host goes out -/
inductive Route where
  | direct
  | system
  | via (server : Str) (auth : Option (Str × Str))
  deriving DecidableEq

/-- client.rs:146-163 `build`: the way of a request -/
def route (E : Env) (b : Builder) (host : Str) : Route :=
  if b.proxy then
    match b.server with
    | none => .system
    | some p => if p.skip.elim false (fun l => E.covers l host) then .direct else .via p.server p.auth
  else .direct

/-- client_args.rs:57-69: the builder of a command; `none`: an error -/
def ofArgs (E : Env) (proxy : Bool) (url domains : Option Str) : Option Builder :=
  let b := setProxy proxy fresh
  let b := match domains with
    | none => b
    | some d => setDomains d b
  match url with
  | none => some b
  | some u => setUrl E u b

/-- a call of the library's builder -/
inductive Call where
  | proxy (on : Bool)
  | url (u : Str)
  | domains (d : Str)
  deriving DecidableEq

/-- a call's effect -/
def apply (E : Env) (b : Builder) : Call → Option Builder
  | .proxy on => some (setProxy on b)
  | .url u => setUrl E u b
  | .domains d => some (setDomains d b)

/-- several calls -/
def applyAll (E : Env) (b : Builder) : List Call → Option Builder
  | [] => some b
  | c :: cs => (apply E b c).bind fun b => applyAll E b cs

end Proxy
end Oro
