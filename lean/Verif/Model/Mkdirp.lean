import Verif.Base.Str
/-
Model of /repo/crates/node-maintainer/src/linkers/mod.rs:483-514 (`mkdirp`; crates/nassun/src/tarball.rs:525-555 is the
same function with other error texts), once as a function and once as a program for threads that share the cache and
the disk.

Simplifications: paths are absolute, without `.`, `..` and symbolic links, and are written innermost component first;
the only reasons for a system call to fail are that something exists already or that the parent is missing or no
folder.
-/

set_option linter.unusedSectionVars false

namespace Oro
namespace Mkdirp

/-- innermost component first; the root folder is `[]` -/
abbrev Path := List Str

/-- what can be at a path -/
inductive Kind where
  | dir
  | file
  deriving DecidableEq

/-- the disk -/
abbrev FS := Path → Option Kind

/-- put something at a path -/
def put (fs : FS) (p : Path) (k : Kind) : FS := fun q => if q = p then some k else fs q

/-- the answers of the system call `mkdir` -/
inductive Mk where
  | ok
  /-- ENOENT: the parent is missing -/
  | notFound
  /-- EEXIST or ENOTDIR -/
  | other
  deriving DecidableEq

/-- the system call `mkdir` -/
def mkdir (fs : FS) : Path → Mk
  | [] => .other
  | c :: par =>
    match fs par with
    | some .dir => if (fs (c :: par)).isSome then .other else .ok
    | some .file => .other
    | none => .notFound

/-- its effect -/
def mkdirFS (fs : FS) (p : Path) : FS := if mkdir fs p = .ok then put fs p .dir else fs

/-- `Path::is_dir` -/
def isDir (fs : FS) (p : Path) : Bool := fs p = some .dir

/-- std::fs::create_dir_all (library/std/src/fs.rs `DirBuilder::create_dir_all`); `none`: an error -/
def createDirAll (fs : FS) : Path → Option FS
  | [] => some fs
  | c :: par =>
    match mkdir fs (c :: par) with
    | .ok => some (put fs (c :: par) .dir)
    | .other => if isDir fs (c :: par) then some fs else none
    | .notFound =>
      match createDirAll fs par with
      | none => none
      | some fs' =>
        match mkdir fs' (c :: par) with
        | .ok => some (put fs' (c :: par) .dir)
        | _ => if isDir fs' (c :: par) then some fs' else none

/-- `Path::ancestors`: the path and everything above it -/
def ancestors : Path → List Path
  | [] => [[]]
  | c :: par => (c :: par) :: ancestors par

/-- mod.rs:489-493: is the parent in the cache? (the root folder has no parent) -/
def parentCached (cache : List Path) : Path → Bool
  | [] => true
  | _ :: par => par ∈ cache

/-- mod.rs:483-514 `mkdirp` without other threads; the first component of the result says whether it succeeded. (What
`create_dir_all` created before failing is not recorded: it creates nothing if there is a file in the way.) -/
def mkdirp (fs : FS) (cache : List Path) (p : Path) : Bool × FS × List Path :=
  if p ∈ cache then (true, fs, cache)
  else if parentCached cache p then
    if mkdir fs p = .ok then (true, put fs p .dir, p :: cache) else (false, fs, cache)
  else
    match createDirAll fs p with
    | some fs' => (true, fs', (ancestors p).reverse ++ cache)
    | none => (false, fs, cache)

/-- a sequence of calls; the answers in order -/
def calls (fs : FS) (cache : List Path) : List Path → List Bool × FS × List Path
  | [] => ([], fs, cache)
  | p :: ps =>
    let r := mkdirp fs cache p
    let rest := calls r.2.1 r.2.2 ps
    (r.1 :: rest.1, rest.2)

/-! ### threads -/

/-- where a call is -/
inductive Phase where
  /-- mod.rs:487 -/
  | start
  /-- mod.rs:488-493, the path was not in the cache -/
  | checkParent
  /-- mod.rs:495, `create_dir` -/
  | create
  /-- `create_dir_all` on its way up: about to `mkdir` `q`; `below`: the folders to create after it -/
  | up (q : Path) (below : List Path)
  /-- `mkdir q` failed although the parent exists: `is_dir`? -/
  | upCheck (q : Path) (below : List Path)
  /-- `create_dir_all` on its way back -/
  | down (below : List Path)
  /-- `mkdir` failed on the way back: `is_dir`? -/
  | downCheck (q : Path) (below : List Path)
  /-- mod.rs:501, 509-511: what is still to be put into the cache -/
  | insert (l : List Path)
  | done
  | failed
  deriving DecidableEq

/-- One step of a call for `p`: each looks at or changes the disk or the cache once. -/
def step (fs : FS) (cache : List Path) (p : Path) : Phase → Phase × FS × List Path
  | .start => (if p ∈ cache then .done else .checkParent, fs, cache)
  | .checkParent => (if parentCached cache p then .create else .up p [], fs, cache)
  | .create => (if mkdir fs p = .ok then .insert [p] else .failed, mkdirFS fs p, cache)
  | .up [] below => (.down below, fs, cache)
  | .up (c :: par) below =>
    match mkdir fs (c :: par) with
    | .ok => (.down below, put fs (c :: par) .dir, cache)
    | .notFound => (.up par ((c :: par) :: below), fs, cache)
    | .other => (.upCheck (c :: par) below, fs, cache)
  | .upCheck q below => (if isDir fs q then .down below else .failed, fs, cache)
  | .down [] => (.insert (ancestors p), fs, cache)
  | .down (q :: below) => (if mkdir fs q = .ok then .down below else .downCheck q below, mkdirFS fs q, cache)
  | .downCheck q below => (if isDir fs q then .down below else .failed, fs, cache)
  | .insert [] => (.done, fs, cache)
  | .insert (q :: l) => (.insert l, fs, q :: cache)
  | .done => (.done, fs, cache)
  | .failed => (.failed, fs, cache)

/-- the disk, the cache and the calls under way -/
structure St where
  fs : FS
  cache : List Path
  threads : List (Path × Phase)

/-- All the ways the program can go on: a call begins, a call takes a step, or somebody else puts something where there
was nothing. Nothing is ever removed. -/
inductive Step : St → St → Prop
  | call (s : St) (p : Path) : Step s { s with threads := s.threads ++ [(p, .start)] }
  | thread (s : St) (i : Nat) (p : Path) (ph : Phase) (h : s.threads[i]? = some (p, ph)) :
      Step s ⟨(step s.fs s.cache p ph).2.1, (step s.fs s.cache p ph).2.2,
        s.threads.set i (p, (step s.fs s.cache p ph).1)⟩
  | other (s : St) (c : Str) (par : Path) (k : Kind) (h : s.fs (c :: par) = none) (hp : s.fs par = some .dir) :
      Step s { s with fs := put s.fs (c :: par) k }

/-- any number of steps -/
inductive Steps : St → St → Prop
  | refl (s : St) : Steps s s
  | tail {s t u : St} : Steps s t → Step t u → Steps s u

end Mkdirp
end Oro
