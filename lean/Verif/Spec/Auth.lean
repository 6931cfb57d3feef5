import Verif.Model.Auth
/- Vocabulary for C38 and C39. -/
set_option linter.unusedSectionVars false
namespace Oro
namespace Auth

/-- an http(s) URL: the host has no slash, the path begins with one -/
def Web (u : Url) : Prop := (∃ h, u.host = some h ∧ '/' ∉ h) ∧ u.path.head? = some '/'

/-- the same registry as far as credentials go: same host, same path -/
def SameReg (a b : Url) : Prop := a.host = b.host ∧ a.path = b.path

/-- the options block holds such a section, but without a block of its own -/
def Bare (sec : Str) (d : KDoc) : Prop := ∃ o oc s, KDoc.get d kOptions = some o ∧ o.children = some oc ∧
  KDoc.get oc sec = some s ∧ s.children = none

/-- the `auth` options a configuration document gives (kdl_source.rs:57-105, oro-config lib.rs:84-91): one for each property
of each node of the auth section -/
def authOpts (l : KDoc) : List AuthOpt :=
  l.flatMap fun k => k.entries.filterMap fun e => match e with
    | (some key, .str v) => some (k.name, key, v)
    | _ => none

/-- what stored credentials mean to a client -/
def meaning : Stored → Cred
  | .token t => .token t
  | .legacy t => .encoded t
  | .basic u p => .basic u p

/-- The header that says these credentials, as RFC 7617 and npm have it: a token as it is, an encoded pair as it is, a
name and a password with a colon between them, encoded. -/
inductive Says (b64 : Str → Str) : Cred → Header → Prop
  | token (t : Str) : Says b64 (.token t) (.bearer t)
  | encoded (a : Str) : Says b64 (.encoded a) (.basic a)
  | pair (user password : Str) : Says b64 (.basic user (some password)) (.basic (b64 (user ++ [':'] ++ password)))
  | user (user : Str) : Says b64 (.basic user none) (.basic (b64 (user ++ [':'])))

end Auth
end Oro
