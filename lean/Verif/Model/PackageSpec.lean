import Verif.Base.Str
/-
Model of /repo/crates/oro-package-spec: the specifier types, their printer and their nom parser, on character lists.
Version, Range and Url are external crates (node_semver, url): their parsers and printers are parameters.
-/

set_option linter.unusedSectionVars false

namespace Oro
namespace PSpec

variable {V R U : Type}

/-! ## Types -/

/-- lib.rs:20-25 `VersionSpec` -/
inductive VersionSpec (V R : Type) where
  | tag (t : Str)
  | version (v : V)
  | range (r : R)
  deriving DecidableEq

/-- gitinfo.rs:13-19 `GitHost` -/
inductive GitHost where
  | github | gist | gitlab | bitbucket
  deriving DecidableEq

/-- gitinfo.rs:59-79 `GitInfo` -/
inductive GitInfo (R U : Type) where
  | hosted (owner repo : Str) (host : GitHost) (committish : Option Str) (semver : Option R) (requested : Option Str)
  | url (url : U) (committish : Option Str) (semver : Option R)
  | ssh (ssh : Str) (committish : Option Str) (semver : Option R)
  deriving DecidableEq

/-- lib.rs:27-42 `PackageSpec`.  A `PathBuf` is modelled by its text (Rust compares paths by components, which is
coarser). -/
inductive PackageSpec (V R U : Type) where
  | dir (path : Str)
  | alias (name : Str) (spec : PackageSpec V R U)
  | npm (scope : Option Str) (name : Str) (requested : Option (VersionSpec V R))
  | git (info : GitInfo R U)
  deriving DecidableEq

/-- The external parsers and printers. -/
structure SpecEnv (V R U : Type) where
  /-- `node_semver::Version::parse` and `Display` -/
  parseV : Str → Option V
  showV : V → Str
  /-- `node_semver::Range::parse` and `Display` -/
  parseR : Str → Option R
  showR : R → Str
  /-- `Url::parse`, `Display`, `scheme`, `host_str`, `path` -/
  parseU : Str → Option U
  showU : U → Str
  scheme : U → Str
  host : U → Option Str
  path : U → Str
  /-- `char::is_alphabetic` -/
  alphabetic : Char → Bool

/-! ## Accessors -/

/-- lib.rs:45-47 `is_alias` -/
def PackageSpec.isAlias : PackageSpec V R U → Bool
  | .alias _ _ => true
  | _ => false

/-- lib.rs:49-56 `is_npm` -/
def PackageSpec.isNpm : PackageSpec V R U → Bool
  | .alias _ s => s.isNpm
  | .dir _ => false
  | .git _ => false
  | .npm _ _ _ => true

/-- lib.rs:58-70 `target` -/
def PackageSpec.target : PackageSpec V R U → PackageSpec V R U
  | .alias _ s => if s.isAlias then s.target else s
  | s => s

/-- lib.rs:72-84 `target_mut`, followed by the caller's write of `f` through the returned reference -/
def PackageSpec.modifyTarget (f : PackageSpec V R U → PackageSpec V R U) : PackageSpec V R U → PackageSpec V R U
  | .alias n s => .alias n (if s.isAlias then s.modifyTarget f else f s)
  | s => f s

/-! ## Printing -/

/-- gitinfo.rs:42-56 -/
def GitHost.show : GitHost → Str
  | .github => ['g','i','t','h','u','b']
  | .gist => ['g','i','s','t']
  | .gitlab => ['g','i','t','l','a','b']
  | .bitbucket => ['b','i','t','b','u','c','k','e','t']

def kGitPlus : Str := ['g','i','t','+']
def kGitSlash : Str := ['g','i','t',':','/','/']
def kSsh : Str := ['s','s','h',':','/','/']
def kSemver : Str := ['s','e','m','v','e','r',':']
def kNpm : Str := ['n','p','m',':']
def kFile : Str := ['f','i','l','e',':']
def kGit : Str := ['g','i','t']

/-- the `#…` suffix (gitinfo.rs:180-184, 192-196, 213-217) -/
def showComm (E : SpecEnv V R U) : Option Str → Option R → Str
  | some c, _ => '#' :: c
  | none, some r => '#' :: (kSemver ++ E.showR r)
  | none, none => []

/-- gitinfo.rs:168-225 `Display for GitInfo` -/
def GitInfo.show (E : SpecEnv V R U) : GitInfo R U → Str
  | .url u c s => (if E.scheme u ≠ kGit then kGitPlus else []) ++ E.showU u ++ showComm E c s
  | .ssh t c s => kGitPlus ++ kSsh ++ t ++ showComm E c s
  | .hosted _ _ _ c s (some q) => (if kGitSlash.isPrefixOf q then [] else kGitPlus) ++ q ++ showComm E c s
  | .hosted o r h c s none => h.show ++ ':' :: (o ++ '/' :: (r ++ showComm E c s))

/-- lib.rs:153-162 `Display for VersionSpec` -/
def VersionSpec.show (E : SpecEnv V R U) : VersionSpec V R → Str
  | .tag t => t
  | .version v => E.showV v
  | .range r => E.showR r

/-- lib.rs:113-151: the part of `Display` about the request of an npm specifier -/
def showReq (E : SpecEnv V R U) : Option (VersionSpec V R) → Str
  | none => []
  | some r => '@' :: r.show E

/-- lib.rs:114-151 `Display for PackageSpec` -/
def PackageSpec.show (E : SpecEnv V R U) : PackageSpec V R U → Str
  | .dir p => p
  | .git i => i.show E
  | .npm _ n req => n ++ showReq E req
  | .alias n (.npm sc m req) => n ++ '@' :: (kNpm ++ (PackageSpec.npm sc m req : PackageSpec V R U).show E)
  | .alias n s => n ++ '@' :: s.show E

/-- lib.rs:86-103 `requested` -/
def PackageSpec.requested (E : SpecEnv V R U) : PackageSpec V R U → Str
  | .dir p => p
  | .git i => i.show E
  | .npm _ _ none => ['*']
  | .npm _ _ (some r) => r.show E
  | .alias _ (.npm sc m req) => kNpm ++ (PackageSpec.npm sc m req : PackageSpec V R U).show E
  | .alias _ s => s.show E

/-! ## nom combinators -/

/-- Result of a nom parser: success with the remaining input, `Err::Error` (backtracks), `Err::Failure` (does not
backtrack), or a panic of the thread. -/
inductive Res (α : Type) where
  | ok (rest : Str) (a : α)
  | err
  | fail
  | panic
  deriving DecidableEq

abbrev P (α : Type) := Str → Res α

/-- sequencing (`?`, `tuple`, `preceded`, `delimited`) -/
def Res.bind {α β : Type} (x : Res α) (f : Str → α → Res β) : Res β :=
  match x with
  | .ok r a => f r a
  | .err => .err
  | .fail => .fail
  | .panic => .panic

/-- `map` -/
def Res.map {α β : Type} (f : α → β) (x : Res α) : Res β := x.bind fun r a => .ok r (f a)

/-- `opt` -/
def opt {α : Type} (p : P α) : P (Option α) := fun s =>
  match p s with
  | .ok r a => .ok r (some a)
  | .err => .ok s none
  | .fail => .fail
  | .panic => .panic

/-- `alt` of two parsers -/
def alt {α : Type} (p q : P α) : P α := fun s =>
  match p s with
  | .err => q s
  | x => x

/-- `cut` -/
def cut {α : Type} (p : P α) : P α := fun s =>
  match p s with
  | .err => .fail
  | x => x

/-- `tag_no_case`.  Simplification: case folding of ASCII letters only. -/
def tagNC : Str → P Unit
  | [], s => .ok s ()
  | c :: t, d :: s => if c.toLower = d.toLower then tagNC t s else .err
  | _ :: _, [] => .err

/-- `take_till1` -/
def takeTill1 (p : Char → Bool) : P Str := fun s =>
  match s.takeWhile (fun c => !p c) with
  | [] => .err
  | a :: l => .ok (s.dropWhile (fun c => !p c)) (a :: l)

/-- parsers/util.rs:5-18: the characters `JS_ENCODED` leaves alone -/
def safeChar (c : Char) : Bool :=
  c.isAlphanum || c == '-' || c == '_' || c == '.' || c == '!' || c == '~' || c == '*' || c == '\'' || c == '(' || c == ')'

/-- parsers/util.rs:20-30 `no_url_encode` succeeds -/
def safe (s : Str) : Bool := s.all safeChar

/-- `map_res(take_till1(p), util::no_url_encode)` -/
def safeTill1 (p : Char → Bool) : P Str := fun s =>
  (takeTill1 p s).bind fun r a => if safe a then .ok r a else .err

/-- `map_res(take_till1(|_| false), f)` -/
def wholeRes {α : Type} (f : Str → Option α) : P α := fun s =>
  (takeTill1 (fun _ => false) s).bind fun r a => match f a with
    | some x => .ok r x
    | none => .err

/-! ## The parsers -/

/-- parsers/path.rs:69-71 -/
def isSep (c : Char) : Bool := c == '/' || c == '\\'

/-- `many1(path_sep)` -/
def seps1 : P Unit := fun s =>
  match s with
  | [] => .err
  | c :: s => if isSep c then .ok (s.dropWhile isSep) () else .err

/-- parsers/path.rs:24-33 `relative_path` (`recognize` of everything up to `rest`: the whole input) -/
def relativePath : P Str := fun s =>
  (tagNC ['.'] s).bind fun s1 _ => (opt (tagNC ['.']) s1).bind fun _ _ => .ok [] s

/-- parsers/path.rs:42-56: the drive letter -/
def drive (E : SpecEnv V R U) : P Unit := fun s =>
  match s with
  | [] => .err
  | c :: s => if E.alphabetic c then tagNC [':'] s else .err

/-- parsers/path.rs:36-67 `absolute_path` -/
def absolutePath (E : SpecEnv V R U) : P Str := fun s =>
  (opt (drive E) s).bind fun s1 _ =>
  (seps1 s1).bind fun s2 _ =>
  (opt (fun t => (tagNC ['?'] t).bind fun t _ => seps1 t) s2).bind fun _ _ => .ok [] s

/-- parsers/path.rs:14-21 `path_spec` -/
def pathSpec (E : SpecEnv V R U) : P (PackageSpec V R U) := fun s =>
  (alt relativePath (absolutePath E) s).map .dir

/-- `preceded(opt(tag("file:")), path::path_spec)` -/
def filePath (E : SpecEnv V R U) : P (PackageSpec V R U) := fun s =>
  (opt (tagNC kFile) s).bind fun s _ => pathSpec E s

/-- parsers/npm.rs:46-51 `version_req` -/
def versionReq (E : SpecEnv V R U) : P (VersionSpec V R) :=
  alt (fun s => (wholeRes E.parseV s).map .version)
    (alt (fun s => (wholeRes E.parseR s).map .range) (fun s => (safeTill1 (fun _ => false) s).map .tag))

/-- parsers/npm.rs:21-25: the optional scope -/
def npmScope : P Str := fun s =>
  (match s with
   | '@' :: s => .ok s ()
   | _ => .err : Res Unit).bind fun s _ =>
  (safeTill1 (· == '/') s).bind fun s sc =>
  match s with
  | '/' :: s => .ok s sc
  | _ => .err

/-- parsers/npm.rs:29-34: the full name -/
def fullName : Option Str → Str → Str
  | some sc, n => '@' :: (sc ++ '/' :: n)
  | none, n => n

/-- parsers/npm.rs:15-44 `npm_spec` -/
def npmSpec (E : SpecEnv V R U) : P (PackageSpec V R U) := fun s =>
  (opt npmScope s).bind fun s sc =>
  (safeTill1 (fun c => c == '@' || c == '/') s).bind fun s n =>
  (opt (fun t => (tagNC ['@'] t).bind fun t _ => cut (versionReq E) t) s).bind fun s req =>
  .ok s (.npm sc (fullName sc n) req)

/-- gitinfo.rs:21-38 and parsers/git.rs:42-50 `hosted_git_prefix` -/
def hostPrefix : P GitHost := fun s =>
  (alt (fun s => (tagNC GitHost.github.show s).map fun _ => GitHost.github)
    (alt (fun s => (tagNC GitHost.gist.show s).map fun _ => GitHost.gist)
      (alt (fun s => (tagNC GitHost.gitlab.show s).map fun _ => GitHost.gitlab)
        (fun s => (tagNC GitHost.bitbucket.show s).map fun _ => GitHost.bitbucket))) s).bind fun s h =>
  (tagNC [':'] s).bind fun s _ => .ok s h

/-- parsers/git.rs:52-71 `committish`; the two alternatives after `#` -/
def commBody (E : SpecEnv V R U) : P (Option Str × Option R) :=
  alt (fun s => (tagNC kSemver s).bind fun s _ => (cut (wholeRes E.parseR) s).map fun r => (none, some r))
    (fun s => if safe s then .ok [] (some s, none) else .err)

/-- parsers/git.rs:52-71 `committish` -/
def committish (E : SpecEnv V R U) : P (Option Str × Option R) := fun s =>
  (opt (fun t => (tagNC ['#'] t).bind fun t _ => commBody E t) s).map fun
    | some x => x
    | none => (none, none)

/-- parsers/git.rs:21-39 `git_shorthand` -/
def gitShorthand (E : SpecEnv V R U) : P (GitInfo R U) := fun s =>
  (opt hostPrefix s).bind fun s h =>
  (safeTill1 (· == '/') s).bind fun s owner =>
  (tagNC ['/'] s).bind fun s _ =>
  (committish E (s.dropWhile (· != '#'))).bind fun r c =>
  .ok r (.hosted owner (s.takeWhile (· != '#')) (h.getD .github) c.1 c.2 none)

/-- the four hosts of parsers/git.rs:84-87, 146 -/
def knownHost (h : Str) : Option GitHost :=
  if h = "github.com".toList then some .github
  else if h = "gitlab.com".toList then some .gitlab
  else if h = "gist.github.com".toList then some .gist
  else if h = "bitbucket.org".toList then some .bitbucket
  else none

/-- `str::split(c)` for a character -/
def splitChar (c : Char) : Str → List Str
  | [] => [[]]
  | a :: s => if a = c then [] :: splitChar c s else
    match splitChar c s with
    | h :: t => (a :: h) :: t
    | [] => [[a]]

/-- `str::replace(".git", "")` -/
def dropGit : Str → Str
  | '.' :: 'g' :: 'i' :: 't' :: s => dropGit s
  | c :: s => c :: dropGit s
  | [] => []

/-- parsers/git.rs:106-110: the repository name without `.git` -/
def repoName (r : Str) : Str := if ['.','g','i','t'].isSuffixOf r then dropGit r else r

/-- parsers/git.rs:83-131: what a parsed URL becomes.  `url.path()[1..]` panics on an empty path. -/
def urlInfo (E : SpecEnv V R U) (u : U) (c : Option Str × Option R) (r : Str) : Res (GitInfo R U) :=
  match (E.host u).bind knownHost with
  | some h =>
    match E.path u with
    | [] => .panic
    | _ :: p => match splitChar '/' p with
      | [o, n] => .ok r (.hosted o (repoName n) h c.1 c.2 (some (E.showU u)))
      | _ => .ok r (.url u c.1 c.2)
  | none => .ok r (.url u c.1 c.2)

/-- parsers/git.rs:78-132 `git_url` -/
def gitUrl (E : SpecEnv V R U) : P (GitInfo R U) := fun s =>
  (alt (tagNC kGitPlus) (fun s => (tagNC kGitSlash s).bind fun _ _ => .ok s ()) s).bind fun s _ =>
  (takeTill1 (· == '#') s).bind fun r t =>
  match E.parseU t with
  | none => .err
  | some u => (committish E r).bind fun r c => urlInfo E u c r

/-- parsers/git.rs:147-150 -/
def scpTail : Option Str → Str
  | some p => ':' :: p
  | none => []

/-- parsers/git.rs:141-150: the raw text of an ssh address -/
def scpRaw (user : Option Str) (host : Str) (path : Option Str) : Str :=
  (match user with | some u => u ++ ['@'] | none => []) ++ host ++ scpTail path

/-- parsers/git.rs:151-206: what an ssh address becomes -/
def scpInfo (user : Option Str) (host : Str) (path : Option Str) (c : Option Str × Option R) : GitInfo R U :=
  match knownHost host, path, user with
  | some h, some p, some _ =>
    match splitChar '/' p with
    | [o, n] => .hosted o (repoName (repoName n)) h c.1 c.2 (some (scpRaw user host path))
    | _ => .ssh (scpRaw user host path) c.1 c.2
  | _, _, _ => .ssh (scpRaw user host path) c.1 c.2

/-- `terminated(take_till1(|c| c == '@'), tag("@"))` -/
def scpUser : P Str := fun s =>
  (takeTill1 (· == '@') s).bind fun s u => (tagNC ['@'] s).bind fun s _ => .ok s u

/-- `preceded(tag(":"), take_till1(|c| c == '#'))` -/
def scpPath : P Str := fun s => (tagNC [':'] s).bind fun s _ => takeTill1 (· == '#') s

/-- parsers/git.rs:134-207 `git_scp` -/
def gitScp (E : SpecEnv V R U) : P (GitInfo R U) := fun s =>
  (opt (tagNC kGitPlus) s).bind fun s _ =>
  (tagNC kSsh s).bind fun s _ =>
  (opt scpUser s).bind fun s user =>
  (takeTill1 (fun c => c == ':' || c == '#') s).bind fun s host =>
  (opt scpPath s).bind fun s path =>
  (committish E s).bind fun s c => .ok s (scpInfo user host path c)

/-- parsers/git.rs:14-19 `git_spec` -/
def gitSpec (E : SpecEnv V R U) : P (PackageSpec V R U) := fun s =>
  (alt (gitShorthand E) (alt (gitUrl E) (gitScp E)) s).map .git

/-- parsers/alias.rs:40-51 `prefixed_package_spec` -/
def prefixedSpec (E : SpecEnv V R U) : P (PackageSpec V R U) :=
  alt (filePath E) (alt (gitSpec E) (fun s => (tagNC kNpm s).bind fun s _ => npmSpec E s))

/-- parsers/alias.rs:53-72 `scope` -/
def aliasScope : P Str := fun s =>
  (opt (tagNC ['@']) s).bind fun s a =>
  (safeTill1 (· == '/') s).bind fun s sc =>
  (tagNC ['/'] s).bind fun s _ => .ok s ((match a with | some _ => ['@'] | none => []) ++ sc)

/-- parsers/alias.rs:24-29: the name of an alias -/
def aliasName : Option Str → Str → Str
  | some sc, n => sc ++ '/' :: n
  | none, n => n

/-- parsers/alias.rs:13-36 `alias_spec` -/
def aliasSpec (E : SpecEnv V R U) : P (PackageSpec V R U) := fun s =>
  (opt aliasScope s).bind fun s sc =>
  (safeTill1 (fun c => c == '@' || c == '/') s).bind fun s n =>
  (tagNC ['@'] s).bind fun s _ =>
  (prefixedSpec E s).map fun a => .alias (aliasName sc n) a

/-- parsers/package.rs:13-23 `package_spec` -/
def packageSpec (E : SpecEnv V R U) : P (PackageSpec V R U) :=
  alt (aliasSpec E) (alt (filePath E) (alt (gitSpec E)
    (fun s => (opt (tagNC kNpm) s).bind fun s _ => npmSpec E s)))

/-- Outcome of parsing a specifier. -/
inductive Parsed (α : Type) where
  | ok (a : α)
  | error
  | panic
  deriving DecidableEq

/-- lib.rs:164-191 `parse_package_spec` (`all_consuming`) -/
def parse (E : SpecEnv V R U) (s : Str) : Parsed (PackageSpec V R U) :=
  match packageSpec E s with
  | .ok [] a => .ok a
  | .panic => .panic
  | _ => .error

end PSpec
end Oro
