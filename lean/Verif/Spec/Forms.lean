import Verif.Spec.PackageSpec
/-
The written forms of a package specifier, as a grammar (what the README and npm's documentation describe), independent
of the parser.
-/

set_option linter.unusedSectionVars false

namespace Oro
namespace PSpec
variable {V R U : Type}

/-- characters that need no URL encoding: ASCII letters, digits and `- _ . ! ~ * ' ( )` -/
def UrlSafe (s : Str) : Prop :=
  ∀ c ∈ s, c.isAlphanum = true ∨ c ∈ ['-', '_', '.', '!', '~', '*', '\'', '(', ')']

/-- A registry name, with its scope if it has one: `name` or `@scope/name`. -/
inductive NameText : Option Str → Str → Prop
  | plain {n : Str} : n ≠ [] → UrlSafe n → n.head? ≠ some '.' → NameText none n
  | inScope {sc n : Str} : sc ≠ [] → UrlSafe sc → n ≠ [] → UrlSafe n → NameText (some sc) ('@' :: (sc ++ '/' :: n))

/-- What follows `name@`: a version; else a range; else a tag. -/
inductive ReqText (E : SpecEnv V R U) : Str → VersionSpec V R → Prop
  | version {t : Str} {v : V} : VersionText t → E.parseV t = some v → ReqText E t (.version v)
  | range {t : Str} {r : R} : VersionText t → E.parseV t = none → E.parseR t = some r → ReqText E t (.range r)
  | tag {t : Str} : t ≠ [] → UrlSafe t → t.head? ≠ some '.' → E.parseV t = none → E.parseR t = none →
      ReqText E t (.tag t)

/-- `name`, or `name@request` -/
inductive RegistryText (E : SpecEnv V R U) : Str → PackageSpec V R U → Prop
  | bare {sc : Option Str} {m : Str} : NameText sc m → RegistryText E m (.npm sc m none)
  | req {sc : Option Str} {m t : Str} {q : VersionSpec V R} : NameText sc m → ReqText E t q →
      RegistryText E (m ++ '@' :: t) (.npm sc m (some q))

/-- a path: starts with a dot or a slash -/
def PathText (p : Str) : Prop := p.head? = some '.' ∨ p.head? = some '/'

/-- the end of a git specifier: nothing, `#commit`, or `#semver:range` -/
inductive CommText (E : SpecEnv V R U) : Str → Option Str → Option R → Prop
  | nothing : CommText E [] none none
  | commit {t : Str} : UrlSafe t → CommText E ('#' :: t) (some t) none
  | semver {t : Str} {r : R} : t ≠ [] → E.parseR t = some r →
      CommText E ('#' :: (['s','e','m','v','e','r',':'] ++ t)) none (some r)

/-- the word for a host in `host:owner/repo` -/
def hostWord : GitHost → Str
  | .github => ['g','i','t','h','u','b']
  | .gist => ['g','i','s','t']
  | .gitlab => ['g','i','t','l','a','b']
  | .bitbucket => ['b','i','t','b','u','c','k','e','t']

/-- the domain of a host -/
def hostDomain : GitHost → Str
  | .github => ['g','i','t','h','u','b','.','c','o','m']
  | .gitlab => ['g','i','t','l','a','b','.','c','o','m']
  | .gist => ['g','i','s','t','.','g','i','t','h','u','b','.','c','o','m']
  | .bitbucket => ['b','i','t','b','u','c','k','e','t','.','o','r','g']

/-- git specifiers -/
inductive GitForm (E : SpecEnv V R U) : Str → GitInfo R U → Prop
  /-- `owner/repo` is a GitHub repository -/
  | short {o r c : Str} {cm : Option Str} {sv : Option R} : o ≠ [] → UrlSafe o → o.head? ≠ some '.' → '#' ∉ r →
      '@' ∉ r → '@' ∉ c → CommText E c cm sv → GitForm E (o ++ '/' :: (r ++ c)) (.hosted o r .github cm sv none)
  /-- `host:owner/repo` -/
  | host {h : GitHost} {o r c : Str} {cm : Option Str} {sv : Option R} : o ≠ [] → UrlSafe o → '#' ∉ r →
      CommText E c cm sv → GitForm E (hostWord h ++ ':' :: (o ++ '/' :: (r ++ c))) (.hosted o r h cm sv none)
  /-- `git+<url>` or `git://...`, of a host other than the four known ones -/
  | url {q c : Str} {u : U} {cm : Option Str} {sv : Option R} : E.parseU q = some u → '#' ∉ q → q ≠ [] →
      (∀ h, E.host u ≠ some (hostDomain h)) → CommText E c cm sv →
      GitForm E (['g','i','t','+'] ++ (q ++ c)) (.url u cm sv)
  /-- the address of a repository on a known host, with or without `.git` -/
  | repo {q c o n e : Str} {u : U} {h : GitHost} {cm : Option Str} {sv : Option R} : E.parseU q = some u → '#' ∉ q →
      q ≠ [] → E.host u = some (hostDomain h) → E.path u = '/' :: (o ++ '/' :: (n ++ e)) → '/' ∉ o → '/' ∉ n →
      ¬ ['.','g','i','t'] <:+: n → (e = [] ∨ e = ['.','g','i','t']) → CommText E c cm sv →
      GitForm E (['g','i','t','+'] ++ (q ++ c)) (.hosted o n h cm sv (some (E.showU u)))

/-- What may follow `name@` in an alias. -/
inductive AliasedText (E : SpecEnv V R U) : Str → PackageSpec V R U → Prop
  | registry {t : Str} {a : PackageSpec V R U} : RegistryText E t a → AliasedText E (['n','p','m',':'] ++ t) a
  | path {p : Str} : PathText p → AliasedText E p (.dir p)
  | file {p : Str} : PathText p → AliasedText E (['f','i','l','e',':'] ++ p) (.dir p)
  | git {t : Str} {i : GitInfo R U} : GitForm E t i → AliasedText E t (.git i)

/-- The written forms of a specifier. -/
inductive Written (E : SpecEnv V R U) : Str → PackageSpec V R U → Prop
  | registry {t : Str} {a : PackageSpec V R U} : RegistryText E t a → Written E t a
  | npm {t : Str} {a : PackageSpec V R U} : RegistryText E t a → Written E (['n','p','m',':'] ++ t) a
  | path {p : Str} : PathText p → '@' ∉ p → Written E p (.dir p)
  | file {p : Str} : PathText p → Written E (['f','i','l','e',':'] ++ p) (.dir p)
  | git {t : Str} {i : GitInfo R U} : GitForm E t i → Written E t (.git i)
  | alias {sc : Option Str} {m t : Str} {a : PackageSpec V R U} : NameText sc m → AliasedText E t a →
      Written E (m ++ '@' :: t) (.alias m a)

end PSpec
end Oro
