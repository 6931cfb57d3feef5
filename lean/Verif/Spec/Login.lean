import Verif.Model.Login
/- Vocabulary for C66 and C67: what the answers of a server say. -/
set_option linter.unusedSectionVars false
namespace Oro
namespace Login

/-- the text occurs in the other one -/
def Within (pat s : Str) : Prop := ∃ pre post, s = pre ++ (pat ++ post)

/-- "log in at this page, then ask at this address" -/
def Started (E : Env) (a : Option Answer) (page done : Str) : Prop :=
  ∃ b, a = some b ∧ (b.status < 400 ∨ 600 ≤ b.status) ∧ E.pagesIn b.body = some (page, done)

/-- "not yet, ask again in so many seconds" -/
def Pending (E : Env) (a : Option Answer) (seconds : Nat) : Prop :=
  ∃ b r, a = some b ∧ b.status = 202 ∧ b.retry = some (some r) ∧ E.number r = some seconds

/-- "here is the token" -/
def Granted (E : Env) (a : Option Answer) (t : Str) : Prop := ∃ b, a = some b ∧ b.status = 200 ∧ E.tokenIn b.body = some t

/-- "user and password are right, here is the token" -/
def Accepted (E : Env) (a : Option Answer) (t : Str) : Prop := ∃ b, a = some b ∧ b.status < 400 ∧ E.tokenIn b.body = some t

/-- "a one-time password is needed": said in a header or in the text -/
def NeedsOtp (E : Env) (a : Option Answer) (b : Answer) : Prop :=
  a = some b ∧ b.status = 401 ∧ b.www ≠ some none ∧
  ((∃ w, b.www = some (some w) ∧ Within ['o','t','p'] (E.lower w)) ∨
    Within ['o','n','e','-','t','i','m','e',' ','p','a','s','s'] (E.lower b.body))

/-- the server names two addresses for the one-time password -/
def OtpPages (E : Env) (b : Answer) (page done : Str) : Prop := E.otpIn b.body = (some page, some done)

/-- The reason a server gives for refusing user and password; `otp`: was a one-time password sent along? -/
inductive Refused (E : Env) (user : Str) (otp : Bool) : Option Answer → Err → Prop
  | unknown {b : Answer} : b.status = 400 → Refused E user otp (some b) (.noSuchUser user)
  | again {a : Option Answer} {b : Answer} : otp = true → NeedsOtp E a b → Refused E user otp a .otpRequired
  | wrong {b : Answer} {w : Str} : b.status = 401 → b.www = some (some w) → Within ['b','a','s','i','c'] (E.lower w) →
      ¬ NeedsOtp E (some b) b → Refused E user otp (some b) .incorrectPassword
  | token {b : Answer} {w : Str} : b.status = 401 → b.www = some (some w) → Within ['b','e','a','r','e','r'] (E.lower w) →
      ¬ Within ['b','a','s','i','c'] (E.lower w) → ¬ NeedsOtp E (some b) b → Refused E user otp (some b) .invalidToken

/-- some answers "not yet", then the token -/
def Polled (E : Env) (answers : List (Option Answer)) (t : Str) : Prop :=
  ∃ ws d rest, answers = ws ++ d :: rest ∧ (∀ w ∈ ws, ∃ n, Pending E w n) ∧ Granted E d t

/-- The credentials a login gives: those on the command line (a token before a user name before a legacy token), or else
the token the server grants. -/
inductive Gives (E : Env) (ty : Typed) (answers : List (Option Answer)) : Cmd → Auth.Stored → Prop
  | token {cmd : Cmd} {t : Str} : cmd.token = some t → Gives E ty answers cmd (.token t)
  | user {cmd : Cmd} {u : Str} : cmd.token = none → cmd.username = some u → Gives E ty answers cmd (.basic u cmd.password)
  | legacyToken {cmd : Cmd} {l : Str} : cmd.token = none → cmd.username = none → cmd.legacyToken = some l →
      Gives E ty answers cmd (.legacy l)
  | web {cmd : Cmd} {a : Option Answer} {rest : List (Option Answer)} {page done t : Str} : cmd.token = none → cmd.username = none →
      cmd.legacyToken = none → cmd.web = true → answers = a :: rest → Started E a page done → E.opens page = true →
      Polled E rest t → Gives E ty answers cmd (.token t)
  | password {cmd : Cmd} {a : Option Answer} {rest : List (Option Answer)} {u p t : Str} : cmd.token = none → cmd.username = none →
      cmd.legacyToken = none → cmd.web = false → ty.user = some u → ty.pass = some p → answers = a :: rest → Accepted E a t →
      Gives E ty answers cmd (.token t)
  | webOtp {cmd : Cmd} {a : Option Answer} {rest : List (Option Answer)} {b : Answer} {u p page done t : Str} : cmd.token = none →
      cmd.username = none → cmd.legacyToken = none → cmd.web = false → ty.user = some u → ty.pass = some p →
      answers = a :: rest → NeedsOtp E a b → OtpPages E b page done → E.opens page = true → Polled E rest t →
      Gives E ty answers cmd (.token t)
  | otp {cmd : Cmd} {a a' : Option Answer} {rest : List (Option Answer)} {b : Answer} {u p o t : Str} : cmd.token = none →
      cmd.username = none → cmd.legacyToken = none → cmd.web = false → ty.user = some u → ty.pass = some p → ty.otp = some o →
      E.headerOk o = true → answers = a :: a' :: rest → NeedsOtp E a b → (∀ page done, ¬ OtpPages E b page done) →
      Accepted E a' t → Gives E ty answers cmd (.token t)

end Login
end Oro
