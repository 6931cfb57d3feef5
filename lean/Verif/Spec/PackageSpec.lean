import Verif.Model.PackageSpec
/-
Specification vocabulary for specifiers: which specifiers are expected to survive printing and parsing.
-/

set_option linter.unusedSectionVars false

namespace Oro
namespace PSpec
variable {V R U : Type}

/-- The look of a version or range: not empty, first character neither a dot nor `g` or `G` (`v1.2.3`, `^1.2 || x` and
the like are fine), and none of `/ \ : @ #` inside. -/
def VersionText (t : Str) : Prop :=
  (∃ c, t.head? = some c ∧ c ≠ '.' ∧ c ≠ 'g' ∧ c ≠ 'G') ∧
    '/' ∉ t ∧ '\\' ∉ t ∧ ':' ∉ t ∧ '@' ∉ t ∧ '#' ∉ t

/-- a version prints to its text and back -/
def PrintsV (E : SpecEnv V R U) (v : V) : Prop := E.parseV (E.showV v) = some v ∧ VersionText (E.showV v)
/-- a range prints to its text and back -/
def PrintsR (E : SpecEnv V R U) (r : R) : Prop := E.parseR (E.showR r) = some r ∧ VersionText (E.showR r)
/-- a URL (without fragment) prints to its text and back -/
def PrintsU (E : SpecEnv V R U) (u : U) : Prop := E.parseU (E.showU u) = some u ∧ '#' ∉ E.showU u ∧ E.showU u ≠ []

/-- A request of a registry specifier prints back: a range must not look like an exact version. -/
def ReqPrints (E : SpecEnv V R U) : Option (VersionSpec V R) → Prop
  | none => True
  | some (.tag _) => True
  | some (.version v) => PrintsV E v
  | some (.range r) => PrintsR E r ∧ E.parseV (E.showR r) = none

/-- a `#semver:` part prints back -/
def SemverPrints (E : SpecEnv V R U) (s : Option R) : Prop := ∀ r, s = some r → PrintsR E r

/-- `q` is the address of repository `o/r` on `h`, as a URL -/
def RepoUrl (E : SpecEnv V R U) (q o r : Str) (h : GitHost) : Prop :=
  ∃ u n c p, PrintsU E u ∧ q = E.showU u ∧ (E.host u).bind knownHost = some h ∧ E.path u = c :: p ∧
    splitChar '/' p = [o, n] ∧ r = repoName n

/-- The git specifiers that print back. -/
def GitPrints (E : SpecEnv V R U) : GitInfo R U → Prop
  | .hosted _ _ _ _ s none => SemverPrints E s
  | .hosted o r h _ s (some q) => SemverPrints E s ∧ RepoUrl E q o r h
  | .url u _ s => SemverPrints E s ∧ PrintsU E u ∧ (E.scheme u = kGit → kGitSlash <+: E.showU u)
  | .ssh t _ s => SemverPrints E s ∧ E.parseU (kSsh ++ t.takeWhile (· != '#')) = none

/-- The specifiers that print back. Excluded are: directories whose path contains an `@` (they may read as an alias),
registry names and tags starting with a dot (they read as a path), ranges that print like a version, ssh addresses that
are also URLs, and ssh addresses of known hosts. -/
def PrintsBack (E : SpecEnv V R U) : PackageSpec V R U → Prop
  | .dir p => '@' ∉ p
  | .npm _ n req => n.head? ≠ some '.' ∧ (∀ t, req = some (.tag t) → t.head? ≠ some '.') ∧ ReqPrints E req
  | .git i => GitPrints E i
  | .alias _ (.npm _ _ req) => ReqPrints E req
  | .alias _ (.dir _) => True
  | .alias _ (.git i) => GitPrints E i
  | .alias _ (.alias _ _) => False

/-- `t` is what remains of `s` after removing all aliases (C22). -/
inductive Unaliased : PackageSpec V R U → PackageSpec V R U → Prop
  | dir {p} : Unaliased (.dir p) (.dir p)
  | npm {a b c} : Unaliased (.npm a b c) (.npm a b c)
  | git {i} : Unaliased (.git i) (.git i)
  | alias {n s t} : Unaliased s t → Unaliased (.alias n s) t

/-- `t` wrapped in the aliases `ns`, outermost first -/
def wrap : List Str → PackageSpec V R U → PackageSpec V R U
  | [], t => t
  | n :: ns, t => .alias n (wrap ns t)

end PSpec
end Oro
