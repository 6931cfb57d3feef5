import Verif.Model.Auth
/-
Model of logging in and out: /repo/crates/oro-client/src/api/login.rs:66-246 (requests and answers), api/logout.rs,
/repo/crates/oro-npm-account/src/login.rs:9-78 (the dialogue), /repo/src/commands/login.rs:67-123 and logout.rs:25-52.

The server's answers, what the user types and whether a browser opens are inputs. Retries and notices of the HTTP client are
not modelled, nor answers whose body cannot be read. Reading JSON, numbers and lower case are parameters.
-/

set_option linter.unusedSectionVars false

namespace Oro
namespace Login
open Auth

/-- an HTTP answer; of a header: is it there, and is it text -/
structure Answer where
  status : Nat
  www : Option (Option Str)
  retry : Option (Option Str)
  body : Str

/-- what the code gets from its libraries and its surroundings -/
structure Env where
  /-- `serde_json::from_str::<Token>` -/
  tokenIn : Str → Option Str
  /-- `serde_json::from_str::<LoginWeb>`: login address and done address -/
  pagesIn : Str → Option (Str × Str)
  /-- `serde_json::from_str::<WebOTPResponse>(..).unwrap_or_default()` -/
  otpIn : Str → Option Str × Option Str
  /-- `str::parse::<u64>` -/
  number : Str → Option Nat
  /-- `str::to_lowercase` -/
  lower : Str → Str
  /-- `open::that` -/
  opens : Str → Bool
  /-- may the text be the value of a header? -/
  headerOk : Str → Bool

/-- errors of the client and the dialogue -/
inductive Err where
  | network
  | status (body : Str)
  | badJson
  | noSuchUser (user : Str)
  | otpRequired
  | incorrectPassword
  | invalidToken
  | open
  | input
  | unexpected
  | file
  | client
  deriving DecidableEq

/-- how something ends; `waiting`: it waits for the next answer -/
inductive Res (α : Type) where
  | ok (a : α)
  | err (e : Err)
  | panic
  | waiting
  deriving DecidableEq

/-- a request -/
inductive Req where
  | web
  | couch (user pass : Str) (otp : Option Str)
  | done (url : Str)
  | delete (token : Str)
  deriving DecidableEq

/-- does the text occur? (`str::contains`) -/
def contains (pat : Str) : Str → Bool
  | [] => pat.isEmpty
  | c :: s => pat.isPrefixOf (c :: s) || contains pat s

/-- login.rs (client) 87-104 `login_web`; `none`: no answer. `error_for_status` fails for 400 to 599 -/
def loginWeb (E : Env) : Option Answer → Res (Str × Str)
  | none => .err .network
  | some a =>
    if 400 ≤ a.status ∧ a.status ≤ 599 then .err (.status a.body)
    else match E.pagesIn a.body with
      | none => .err .badJson
      | some p => .ok p

/-- login.rs:9-13 `DoneURLResponse` -/
inductive Done where
  | token (t : Str)
  | wait (seconds : Nat)
  deriving DecidableEq

/-- login.rs (client) 194-246 `fetch_done_url` -/
def fetchDone (E : Env) : Option Answer → Res Done
  | none => .err .network
  | some a =>
    if a.status = 200 then
      match E.tokenIn a.body with
      | none => .err .badJson
      | some t => .ok (.token t)
    else if a.status = 202 then
      match a.retry with
      | none => .err (.status a.body)
      | some none => .panic
      | some (some r) => match E.number r with
        | none => .panic
        | some n => .ok (.wait n)
    else .err (.status a.body)

/-- login.rs:21-26 `LoginCouchResponse` -/
inductive Couch where
  | webOtp (authUrl doneUrl : Str)
  | classicOtp
  | token (t : Str)
  deriving DecidableEq

/-- "otp", "one-time pass", "basic", "bearer" -/
def wOtp : Str := ['o','t','p']
@[inherit_doc wOtp] def wOneTime : Str := ['o','n','e','-','t','i','m','e',' ','p','a','s','s']
@[inherit_doc wOtp] def wBasic : Str := ['b','a','s','i','c']
@[inherit_doc wOtp] def wBearer : Str := ['b','e','a','r','e','r']

/-- login.rs (client) 106-192 `login_couch`: what an answer gives -/
def loginCouch (E : Env) (user : Str) (otp : Option Str) : Option Answer → Res Couch
  | none => .err .network
  | some a =>
    if a.status = 400 then .err (.noSuchUser user)
    else if a.status = 401 then
      match a.www with
      | some none => .panic
      | www =>
        let w := (www.bind id).elim [] E.lower
        if contains wOtp w || contains wOneTime (E.lower a.body) then
          if otp.isNone then
            match E.otpIn a.body with
            | (some au, some du) => .ok (.webOtp au du)
            | _ => .ok .classicOtp
          else .err .otpRequired
        else if contains wBasic w then .err .incorrectPassword
        else if contains wBearer w then .err .invalidToken
        else .err (.status a.body)
    else if 400 ≤ a.status then .err (.status a.body)
    else match E.tokenIn a.body with
      | none => .err .badJson
      | some t => .ok (.token t)

/-- login.rs (account) 25-32, 50-57: asking the done address until there is a token; the result, the requests, and the
seconds waited for -/
def poll (E : Env) (url : Str) : List (Option Answer) → Res Str × List Req × Nat
  | [] => (.waiting, [.done url], 0)
  | a :: rest => match fetchDone E a with
    | .ok (.token t) => (.ok t, [.done url], 0)
    | .ok (.wait n) => let r := poll E url rest; (r.1, .done url :: r.2.1, n + r.2.2)
    | .err e => (.err e, [.done url], 0)
    | .panic => (.panic, [.done url], 0)
    | .waiting => (.waiting, [.done url], 0)

/-- the user's side of the dialogue; `none`: nothing could be read -/
structure Typed where
  user : Option Str
  pass : Option Str
  otp : Option Str

/-- login.rs (account) 18-33: logging in with the browser -/
def webFlow (E : Env) : List (Option Answer) → Res Str × List Req × Nat
  | [] => (.waiting, [.web], 0)
  | a :: rest => match loginWeb E a with
    | .ok (page, done) =>
      if E.opens page then
        let r := poll E done rest
        (r.1, .web :: r.2.1, r.2.2)
      else (.err .open, [.web], 0)
    | .err e => (.err e, [.web], 0)
    | .panic => (.panic, [.web], 0)
    | .waiting => (.waiting, [.web], 0)

/-- login.rs (account) 60-74: the second attempt, with a one-time password -/
def otpFlow (E : Env) (user pass : Str) (otp : Option Str) (answers : List (Option Answer)) : Res Str × List Req × Nat :=
  match otp with
  | none => (.err .input, [], 0)
  | some o =>
    if E.headerOk o then
      match answers with
      | [] => (.waiting, [.couch user pass (some o)], 0)
      | a :: _ => match loginCouch E user (some o) a with
        | .ok (.token t) => (.ok t, [.couch user pass (some o)], 0)
        | .ok _ => (.err .unexpected, [.couch user pass (some o)], 0)
        | .err e => (.err e, [.couch user pass (some o)], 0)
        | .panic => (.panic, [.couch user pass (some o)], 0)
        | .waiting => (.waiting, [.couch user pass (some o)], 0)
    else (.panic, [], 0)

/-- login.rs (account) 34-77: logging in with user and password -/
def legacyFlow (E : Env) (ty : Typed) (answers : List (Option Answer)) : Res Str × List Req × Nat :=
  match ty.user, ty.pass with
  | some user, some pass =>
    (match answers with
    | [] => (.waiting, [.couch user pass none], 0)
    | a :: rest => match loginCouch E user none a with
      | .ok (.token t) => (.ok t, [.couch user pass none], 0)
      | .ok (.webOtp au du) =>
        if E.opens au then
          let r := poll E du rest
          (r.1, .couch user pass none :: r.2.1, r.2.2)
        else (.err .open, [.couch user pass none], 0)
      | .ok .classicOtp =>
        let r := otpFlow E user pass ty.otp rest
        (r.1, .couch user pass none :: r.2.1, r.2.2)
      | .err e => (.err e, [.couch user pass none], 0)
      | .panic => (.panic, [.couch user pass none], 0)
      | .waiting => (.waiting, [.couch user pass none], 0))
  | _, _ => (.err .input, [], 0)

/-- login.rs (account) 9-78 `login`; `scope`: sent as a header (client login.rs:65-85) -/
def login (E : Env) (web : Bool) (scope : Option Str) (ty : Typed) (answers : List (Option Answer)) : Res Str × List Req × Nat :=
  if scope.all E.headerOk then (if web then webFlow E answers else legacyFlow E ty answers)
  else if web then (.panic, [], 0)
  else match ty.user, ty.pass with
    | some _, some _ => (.panic, [], 0)
    | _, _ => (.err .input, [], 0)

/-! ### the commands -/

/-- the options of `oro login` -/
structure Cmd where
  web : Bool
  token : Option Str
  username : Option Str
  password : Option Str
  legacyToken : Option Str
  scope : Option Str

/-- login.rs (command) 88-115: the credentials to save -/
def credentials (E : Env) (cmd : Cmd) (ty : Typed) (answers : List (Option Answer)) : Res Stored × List Req :=
  match cmd.token, cmd.username, cmd.legacyToken with
  | some t, _, _ => (.ok (.token t), [])
  | none, some u, _ => (.ok (.basic u cmd.password), [])
  | none, none, some l => (.ok (.legacy l), [])
  | none, none, none =>
    let r := login E cmd.web cmd.scope ty answers
    ((match r.1 with
      | .ok t => .ok (.token t)
      | .err e => .err e
      | .panic => .panic
      | .waiting => .waiting), r.2.1)

/-- login.rs (command) 69-123 `execute`. `file`: the configuration file, if it is there and can be read; `clientOk`: can
the client be built. The result, the requests, and the file afterwards. -/
def loginCommand (E : Env) (parse : Str → Option Url) (text : Url → Str) (reg : Url) (cmd : Cmd) (clientOk : Bool) (ty : Typed)
    (answers : List (Option Answer)) (file : Option KDoc) : Res Unit × List Req × Option KDoc :=
  match file with
  | none => (.err .file, [], none)
  | some d =>
    if clientOk then
      match credentials E cmd ty answers with
      | (.ok c, rs) =>
        (.ok (), rs, some (match cmd.scope with
          | none => setCreds parse text reg c d
          | some s => setScoped text s reg (setCreds parse text reg c d)))
      | (.err e, rs) => (.err e, rs, some d)
      | (.panic, rs) => (.panic, rs, some d)
      | (.waiting, rs) => (.waiting, rs, some d)
    else (.err .client, [], some d)

/-- logout.rs (command) 27-51 `execute`, logout.rs (client) 4-11. `answers`: does the request to delete the token get an
answer (whatever its status) -/
def logoutCommand (b : B64) (parse : Str → Option Url) (reg : Url) (clientOk answered : Bool) (file : Option KDoc) :
    Res Unit × List Req × Option KDoc :=
  if clientOk then
    match file with
    | none => (.err .file, [], none)
    | some d =>
      match getCreds parse b reg d with
      | some (.token t) => if answered then (.ok (), [.delete t], some (clearCreds parse reg d)) else (.err .network, [.delete t], some d)
      | _ => (.ok (), [], some (clearCreds parse reg d))
  else (.err .client, [], file)

end Login
end Oro
