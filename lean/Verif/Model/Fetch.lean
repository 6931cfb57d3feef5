import Verif.Model.LockPackage
/-
Model of /repo/crates/nassun/src/fetch/git.rs, /repo/crates/nassun/src/fetch/dir.rs:43-150,
/repo/crates/nassun/src/fetch/npm.rs:52-152 (as far as dispatch goes), /repo/crates/nassun/src/client.rs:287-303, 337-360
and /repo/crates/oro-package-spec/src/gitinfo.rs:100-165: how packages in directories and git repositories are resolved
and fetched.

The commands `git clone`, `git show-ref --tags` and `git checkout`, the network, the files in directories and the parser
of package.json are parameters.  The registry's answers are a parameter (see Model/Npm.lean for how they are memoised).
-/

set_option linter.unusedSectionVars false

namespace Oro
namespace Fetch
open PSpec Nassun

variable {V R U I : Type}

/-- outcome: a value, an error, or a crash of the program -/
inductive Out (α : Type) where
  | ok (a : α)
  | err
  | panic
  deriving DecidableEq

/-- `?` -/
def Out.bind {α β : Type} (x : Out α) (f : α → Out β) : Out β :=
  match x with
  | .ok a => f a
  | .err => .err
  | .panic => .panic

/-- `ok_or` -/
def Out.ofOption {α : Type} : Option α → Out α
  | some a => .ok a
  | none => .err

/-- files: path (as components) and contents -/
abbrev Files := List (List Str × Str)

/-- a git repository -/
structure Repo where
  /-- the default branch -/
  head : Files
  /-- `git show-ref --tags`: what follows the last slash of each line -/
  tags : List Str
  /-- `git checkout`; `none`: it fails -/
  checkout : Str → Option Files

/-- the fields of a package.json used here -/
structure PkgJson (V : Type) where
  name : Option Str
  version : Option V

/-- the surroundings -/
structure FetchEnv (V R U I : Type) where
  spec : SpecEnv V R U
  world : World V R I
  /-- `git clone <address>`; `none`: it fails -/
  clone : Str → Option Repo
  /-- the entries of the tarball at an address, as far as they were unpacked, and whether that succeeded -/
  archive : Str → Files × Bool
  /-- `serde_json::from_slice` of a package.json -/
  json : Str → Option (PkgJson V)
  /-- the files below a directory -/
  dirFiles : Str → Files
  /-- `Path::file_name` -/
  fileName : Str → Option Str
  /-- the registry's answer for a package -/
  registry : Option Str → Str → Option (Packument V)
  baseDir : Str
  defaultTag : Str

/-- "package" -/
def kPackage : Str := ['p','a','c','k','a','g','e']
/-- "package.json" -/
def kPkgJson : Str := ['p','a','c','k','a','g','e','.','j','s','o','n']

/-! ### addresses of hosted repositories -/

/-- gitinfo.rs:100-119 `ssh` -/
def sshAddr (h : GitHost) (o r : Str) : Str :=
  match h with
  | .github => ['g','i','t','@','g','i','t','h','u','b','.','c','o','m',':'] ++ o ++ '/' :: r ++ ['.','g','i','t']
  | .gist => ['g','i','t','@','g','i','s','t','.','g','i','t','h','u','b','.','c','o','m',':','/'] ++ r
  | .gitlab => ['g','i','t','@','g','i','t','l','a','b','.','c','o','m',':'] ++ o ++ '/' :: r ++ ['.','g','i','t']
  | .bitbucket => ['g','i','t','@','b','i','t','b','u','c','k','e','t','.','c','o','m',':'] ++ o ++ '/' :: r

/-- gitinfo.rs:121-139 `https` -/
def httpsAddr (h : GitHost) (o r : Str) : Str :=
  match h with
  | .github => ['h','t','t','p','s',':','/','/','g','i','t','h','u','b','.','c','o','m','/'] ++ o ++ '/' :: r ++ ['.','g','i','t']
  | .gist => ['h','t','t','p','s',':','/','/','g','i','s','t','.','g','i','t','h','u','b','.','c','o','m','/'] ++ r ++ ['.','g','i','t']
  | .gitlab => ['h','t','t','p','s',':','/','/','g','i','t','l','a','b','.','c','o','m','/'] ++ o ++ '/' :: r ++ ['.','g','i','t']
  | .bitbucket => ['h','t','t','p','s',':','/','/','b','i','t','b','u','c','k','e','t','.','c','o','m','/'] ++ o ++ '/' :: r ++ ['.','g','i','t']

/-- gitinfo.rs:141-165 `tarball` -/
def tarballAddr (h : GitHost) (o r c : Str) : Str :=
  match h with
  | .github => ['h','t','t','p','s',':','/','/','c','o','d','e','l','o','a','d','.','g','i','t','h','u','b','.','c','o','m','/'] ++ o ++ '/' :: r ++ ['/','t','a','g','.','g','z','/'] ++ c
  | .gist => ['h','t','t','p','s',':','/','/','c','o','d','e','l','o','a','d','.','g','i','t','h','u','b','.','c','o','m','/','g','i','s','t','/'] ++ r ++ ['/','t','a','r','.','g','z','/'] ++ c
  | .gitlab => ['h','t','t','p','s',':','/','/','g','i','t','l','a','b','.','c','o','m','/'] ++ o ++ '/' :: r ++ ['/','r','e','p','o','s','i','t','o','r','y','/','a','r','c','h','i','v','e','.','t','a','r','.','g','z','?','r','e','f','='] ++ c
  | .bitbucket => ['h','t','t','p','s',':','/','/','b','i','t','b','u','c','k','e','t','.','o','r','g','/'] ++ o ++ '/' :: r ++ ['/','g','e','t','/'] ++ c ++ ['.','t','a','r','.','g','z']

/-- `url.parse().expect(..)`, then `to_string` -/
def asUrl (E : SpecEnv V R U) (t : Str) : Out Str :=
  match E.parseU t with
  | some u => .ok (E.showU u)
  | none => .panic

/-! ### fetching a repository -/

/-- git.rs:131-165: the reference to check out -/
def checkoutRef (e : FetchEnv V R U I) (r : Repo) (committish : Option Str) (semver : Option R) : Out (Option Str) :=
  match semver with
  | some range =>
    match maxSatisfying e.world (r.tags.filterMap e.spec.parseV) range with
    | some v => .ok (some (e.spec.showV v))
    | none => .err
  | none => .ok committish

/-- files put below the folder `package` -/
def inPackage (fs : Files) : Files := fs.map fun f => (kPackage :: f.1, f.2)

/-- `git clone <address> package` does not work when the folder `package` is there and not empty -/
def blocked (dir : Files) : Bool := dir.any fun f => f.1.head? == some kPackage

/-- git.rs:101-188 `fetch_clone`, into a folder with the files `dir` -/
def fetchClone (e : FetchEnv V R U I) (dir : Files) (repo : Str) (committish : Option Str) (semver : Option R) : Out Files :=
  if blocked dir then .err
  else
    (Out.ofOption (e.clone repo)).bind fun r =>
    (checkoutRef e r committish semver).bind fun ref =>
    match ref with
    | some c => (Out.ofOption (r.checkout c)).bind fun fs => .ok (dir ++ inPackage fs)
    | none => .ok (dir ++ inPackage r.head)

/-- whether `git clone` leaves the folder `package` behind (it removes what it made when it fails) -/
def cloned (e : FetchEnv V R U I) (dir : Files) (repo : Str) : Bool := !blocked dir && (e.clone repo).isSome

/-- git.rs:92-99 `fetch_tarball`: unpacking removes the first component of each path (tarball.rs:249, 422-425) -/
def fetchTarball (e : FetchEnv V R U I) (addr : Str) : Files × Bool :=
  ((e.archive addr).1.map fun f => (f.1.drop 1, f.2), (e.archive addr).2)

/-- git.rs:35-90 `fetch_to_temp_dir` -/
def fetchToTempDir (e : FetchEnv V R U I) : GitInfo R U → Out Files
  | .url u c s => fetchClone e [] (e.spec.showU u) c s
  | .ssh t c s => fetchClone e [] t c s
  | .hosted _ _ _ c s (some q) => fetchClone e [] q c s
  | .hosted _ _ _ none _ none => .panic
  | .hosted o r h (some c) s none =>
    (asUrl e.spec (tarballAddr h o r c)).bind fun tarball =>
    (asUrl e.spec (httpsAddr h o r)).bind fun https =>
    let got := fetchTarball e tarball
    if got.2 then .ok got.1
    else
      match fetchClone e got.1 https (some c) s with
      | .ok d => .ok d
      | .err => if cloned e got.1 https then .err else fetchClone e got.1 (sshAddr h o r) (some c) s
      | .panic => .panic

/-! ### reading packages -/

/-- the text of a file; of two with the same path, the later one -/
def readFile (fs : Files) (p : List Str) : Option Str := (fs.reverse.find? fun f => f.1 == p).map (·.2)

/-- dir.rs:29-47: reading package.json of a package with the files `fs` -/
def manifest (e : FetchEnv V R U I) (fs : Files) : Option (PkgJson V) := (readFile fs [kPkgJson]).bind e.json

/-- dir.rs:158-180, 203-218: the one version of a package in a folder called `folder`, with its name -/
def dirMeta (e : FetchEnv V R U I) (fs : Files) (folder : Option Str) : Out (Str × Packument V) :=
  (Out.ofOption (manifest e fs)).bind fun m =>
  (Out.ofOption (m.name.or folder)).bind fun n =>
  let v := m.version.getD e.world.zero
  .ok (n, { versions := [(v, { version := some v, tarball := none, integrity := none, shasum := none })],
            tags := [(['l','a','t','e','s','t'], v)] })

/-- the files of the package in the temporary folder -/
def packageFiles (d : Files) : Files :=
  d.filterMap fun f => match f.1 with
    | x :: p => if x = kPackage then some (p, f.2) else none
    | [] => none

/-- git.rs:200-211, 238-252: fetching a repository and reading its metadata -/
def gitMeta (e : FetchEnv V R U I) (i : GitInfo R U) : Out (Str × Packument V) :=
  (fetchToTempDir e i).bind fun d => dirMeta e (packageFiles d) (some kPackage)

/-! ### dispatch -/

/-- which fetcher is used -/
inductive Fetcher where
  | npm | dir | git
  deriving DecidableEq

/-- client.rs:337-360 `pick_fetcher` -/
def pick : PackageSpec V R U → Fetcher
  | .alias _ s => pick s
  | .npm _ _ _ => .npm
  | .dir _ => .dir
  | .git _ => .git

/-- npm.rs:52-59, dir.rs:95-104, git.rs:193-206: `name` -/
def nameOf (e : FetchEnv V R U I) (f : Fetcher) (s : PackageSpec V R U) : Out Str :=
  match f, s with
  | .npm, .npm _ n _ => .ok n
  | .npm, .alias n _ => .ok n
  | .npm, _ => .panic
  | .dir, .alias n _ => .ok n
  | .dir, .dir p => (dirMeta e (e.dirFiles (e.world.join e.baseDir p)) (e.fileName (e.world.join e.baseDir p))).bind fun m => .ok m.1
  | .dir, _ => .panic
  | .git, .alias n _ => .ok n
  | .git, .git i => (gitMeta e i).bind fun m => .ok m.1
  | .git, _ => .panic

/-- npm.rs:91-119, dir.rs:130-140, git.rs:238-252: `corgi_packument` -/
def packument (e : FetchEnv V R U I) (f : Fetcher) (s : PackageSpec V R U) : Out (Packument V) :=
  match f with
  | .npm => match s.target with
    | .npm sc n _ => Out.ofOption (e.registry sc n)
    | _ => .panic
  | .dir => match s with
    | .dir p => (dirMeta e (e.dirFiles (e.world.join e.baseDir p)) (e.fileName (e.world.join e.baseDir p))).bind fun m => .ok m.2
    | _ => .panic
  | .git => match s.target with
    | .git i => (gitMeta e i).bind fun m => .ok m.2
    | _ => .panic

/-- client.rs:297-303, resolver.rs:123-140: `resolve_spec`: the name and where the package comes from -/
def resolveSpec [DecidableEq V] (e : FetchEnv V R U I) (s : PackageSpec V R U) : Out (Str × Resolution V R U I) :=
  (nameOf e (pick s) s).bind fun name =>
  (packument e (pick s) s).bind fun p =>
  match getResolution e.world e.baseDir e.defaultTag name s p with
  | .ok r => .ok (name, r)
  | .error _ => .err

/-- graph.rs:86-92: the specifier of a requirement in a package.json -/
def requirement (E : SpecEnv V R U) (name text : Str) : Parsed (PackageSpec V R U) := parse E (name ++ '@' :: text)

/-- npm.rs:153-159, dir.rs:142-146 (`unimplemented!`), git.rs:273-275 (`todo!`): the tarball of a package resolved from
`from`; `some` address to be fetched -/
def tarball («from» : PackageSpec V R U) (r : Resolution V R U I) : Out Str :=
  match pick «from» with
  | .npm => match r with
    | .npm _ _ t _ => .ok t
    | _ => .panic
  | .dir => .panic
  | .git => .panic

end Fetch
end Oro
