import Verif.Model.Lockfile
/-
Model of /repo/crates/oro-client/src/auth_middleware.rs (attaching credentials to requests),
/repo/src/client_args.rs:58-93 (building the credentials from the `auth` options) and
/repo/crates/oro-npm-account/src/config.rs (storing credentials in the configuration document).

URLs are records of the parts the code looks at; parsing and printing them (crate `url`) are parameters, as is base64.
Redirects are followed inside `reqwest`, after the middleware, and are not modelled.
-/

set_option linter.unusedSectionVars false

namespace Oro
namespace Auth

/-- `url::Url` -/
structure Url where
  scheme : Str
  host : Option Str
  port : Option Nat
  path : Str
  rest : Str
  deriving DecidableEq

/-- auth_middleware.rs:86-88 `nerf_dart` -/
def nerf (u : Url) : Str := '/' :: '/' :: u.host.getD [] ++ u.path

/-- /repo/crates/oro-client/src/credentials.rs -/
inductive Cred where
  | basic (user : Str) (pass : Option Str)
  | encoded (a : Str)
  | token (t : Str)
  deriving DecidableEq

/-- the value of an Authorization header -/
inductive Header where
  | basic (encoded : Str)
  | bearer (t : Str)
  deriving DecidableEq

/-- auth_middleware.rs:66-84 `basic_auth`: what is encoded -/
def basicText (user : Str) (pass : Option Str) : Str := user ++ ':' :: pass.getD []

/-- auth_middleware.rs:41-58 -/
def headerOf (b64 : Str → Str) : Cred → Header
  | .basic u p => .basic (b64 (basicText u p))
  | .encoded a => .basic a
  | .token t => .bearer t

/-- auth_middleware.rs:35-36: is the request inside the registry? -/
def inside (reg req : Url) : Bool := reg.host = req.host && reg.path.isPrefixOf req.path

/-- auth_middleware.rs:16-63 `AuthMiddleware::handle`: the Authorization header added to a request that names this registry -/
def attached (b64 : Str → Str) (creds : IMap Str Cred) (reg req : Url) : Option Header :=
  if inside reg req then (creds.get? (nerf reg)).map (headerOf b64) else none

/-! ### the credentials a client has -/

/-- the words of the `auth` options -/
def kToken : Str := ['t', 'o', 'k', 'e', 'n']
@[inherit_doc kToken] def kUser : Str := ['u', 's', 'e', 'r', 'n', 'a', 'm', 'e']
@[inherit_doc kToken] def kPass : Str := ['p', 'a', 's', 's', 'w', 'o', 'r', 'd']
@[inherit_doc kToken] def kLegacy : Str := ['l', 'e', 'g', 'a', 'c', 'y', '-', 'a', 'u', 't', 'h']

/-- one `--auth {registry}key=value` -/
abbrev AuthOpt := Str × Str × Str

/-- client_args.rs:75-82: the first password given for the same registry text -/
def passwordFor (all : List AuthOpt) (reg : Str) : Option Str :=
  (all.find? fun e => e.1 = reg && e.2.1 = kPass).map fun e => e.2.2

/-- client_args.rs:71-91: what one option stands for -/
def credOf (all : List AuthOpt) (e : AuthOpt) : Option Cred :=
  if e.2.1 = kToken then some (.token e.2.2)
  else if e.2.1 = kUser then some (.basic e.2.2 (passwordFor all e.1))
  else if e.2.1 = kLegacy then some (.encoded e.2.2)
  else none

/-- client_args.rs:71-91: one option; the map is the builder's (client.rs:69-92) -/
def addCred (parse : Str → Option Url) (all : List AuthOpt) (m : Option (IMap Str Cred)) (e : AuthOpt) : Option (IMap Str Cred) :=
  m.bind fun m => (parse e.1).map fun u =>
    match credOf all e with
    | none => m
    | some c => IMap.insert m (nerf u) c

/-- client_args.rs:58-93 `TryFrom<ClientArgs>`: `none` if a registry is no URL -/
def clientCreds (parse : Str → Option Url) (all : List AuthOpt) : Option (IMap Str Cred) :=
  all.foldl (addCred parse all) (some [])

/-! ### the configuration document -/

/-- oro-npm-account config.rs:6-14 `Credentials` -/
inductive Stored where
  | token (t : Str)
  | legacy (t : Str)
  | basic (user : Str) (pass : Option Str)
  deriving DecidableEq

/-- node names -/
def kOptions : Str := ['o', 'p', 't', 'i', 'o', 'n', 's']
@[inherit_doc kOptions] def kAuth : Str := ['a', 'u', 't', 'h']
@[inherit_doc kOptions] def kScoped : Str :=
  ['s', 'c', 'o', 'p', 'e', 'd', '-', 'r', 'e', 'g', 'i', 's', 't', 'r', 'i', 'e', 's']

/-- `KdlDocument::get_mut(name)` and a change of that node: the first node of the name -/
def updFirst (n : Str) (f : KNode → KNode) : KDoc → KDoc
  | [] => []
  | k :: d => if k.name = n then f k :: d else k :: updFirst n f d

/-- `KdlNode::ensure_children` -/
def ensureChildren (k : KNode) : KNode := .mk k.name k.entries (some (k.children.getD []))

/-- `children_mut().as_mut()` and a change of the children, if there are any -/
def updChildren (f : KDoc → KDoc) (k : KNode) : KNode := .mk k.name k.entries (k.children.map f)

/-- config.rs:21-27, 70-79: add the section with an empty block if there is none of that name -/
def addSection (sec : Str) (d : KDoc) : KDoc :=
  if (KDoc.get d sec).isNone then d ++ [.mk sec [] (some [])] else d

/-- config.rs:17-28, 66-80: make sure there are an options block and a section in it -/
def ensureSection (sec : Str) (d : KDoc) : KDoc :=
  updFirst kOptions (fun o => updChildren (addSection sec) (ensureChildren o))
    (if (KDoc.get d kOptions).isNone then d ++ [.mk kOptions [] none] else d)

/-- config.rs:30-35: a change of the nodes in a section, if all blocks are there -/
def inSection (sec : Str) (f : KDoc → KDoc) (d : KDoc) : KDoc :=
  updFirst kOptions (updChildren (updFirst sec (updChildren f))) d

/-- config.rs:157-164 `clean_auth_nodes` -/
def cleanAuth (parse : Str → Option Url) (uri : Url) (d : KDoc) : KDoc :=
  d.filter fun k => match parse k.name with
    | none => false
    | some u => nerf u ≠ nerf uri

/-- config.rs:36-61: the node for some credentials -/
def credNode (text : Url → Str) (uri : Url) : Stored → KNode
  | .token t => .mk (text uri) [(some kToken, .str t)] none
  | .legacy t => .mk (text uri) [(some kLegacy, .str t)] none
  | .basic u none => .mk (text uri) [(some kUser, .str u)] none
  | .basic u (some p) => .mk (text uri) [(some kUser, .str u), (some kPass, .str p)] none

/-- config.rs:16-63 `set_credentials_by_uri` -/
def setCreds (parse : Str → Option Url) (text : Url → Str) (uri : Url) (c : Stored) (d : KDoc) : KDoc :=
  inSection kAuth (fun l => cleanAuth parse uri l ++ [credNode text uri c]) (ensureSection kAuth d)

/-- config.rs:65-94 `set_scoped_registry` -/
def setScoped (text : Url → Str) (scope : Str) (reg : Url) (d : KDoc) : KDoc :=
  inSection kScoped (fun l => (l.filter fun k => k.name ≠ scope) ++ [.leaf scope (text reg)]) (ensureSection kScoped d)

/-- `KdlNode::get(key)`: the last property of that name -/
def KNode.prop (k : KNode) (key : Str) : Option KVal := ((k.entries.reverse.find? fun e => e.1 = some key)).map Prod.snd

/-- the nodes in a section of the options -/
def sectionNodes (sec : Str) (d : KDoc) : Option KDoc :=
  (KDoc.get d kOptions).bind fun o => o.children.bind fun oc => (KDoc.get oc sec).bind fun s => s.children

/-- config.rs:103-108: the first node for this registry -/
def findAuth (parse : Str → Option Url) (uri : Url) (l : KDoc) : Option KNode :=
  l.find? fun k => match parse k.name with
    | none => false
    | some u => nerf u = nerf uri

/-- base64 with its decoder -/
structure B64 where
  enc : Str → Str
  dec : Str → Option Str

/-- config.rs:110-133: the credentials a node stands for -/
def readNode (b : B64) (k : KNode) : Option Stored :=
  match KNode.prop k kToken, KNode.prop k kLegacy, KNode.prop k kUser, KNode.prop k kPass with
  | _, some t, _, _ => t.asStr.map .token
  | _, none, some u, some p => u.asStr.bind fun u => p.asStr.bind fun p => (b.dec p).map fun p =>
      .legacy (b.enc (u ++ ':' :: p))
  | some l, none, _, _ => l.asStr.map .legacy
  | none, none, _, _ => none

/-- config.rs:96-134 `get_credentials_by_uri` -/
def getCreds (parse : Str → Option Url) (b : B64) (uri : Url) (d : KDoc) : Option Stored :=
  (sectionNodes kAuth d).bind fun l => (findAuth parse uri l).bind (readNode b)

/-- config.rs:136-155 `clear_crendentials_by_uri` -/
def clearCreds (parse : Str → Option Url) (uri : Url) (d : KDoc) : KDoc :=
  match sectionNodes kAuth d with
  | none => d
  | some l =>
    if cleanAuth parse uri l = [] then updFirst kOptions (updChildren fun oc => oc.filter fun k => k.name ≠ kAuth) d
    else inSection kAuth (cleanAuth parse uri) d

end Auth
end Oro
