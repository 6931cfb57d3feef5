import Verif.Model.Tarball
/-
Several extractions at the same time, on one file system and one cache.

/repo/crates/nassun/src/package.rs:206-346 and /repo/crates/nassun/src/tarball.rs:205-480 again, as a program that makes one
access to the file system or the cache per step.  The linkers run up to `concurrency` extractions at a time
(/repo/crates/node-maintainer/src/linkers/hoisted.rs:266-350, isolated.rs:360-470), each on a thread of its own, and other
processes may use the same cache; so between two steps of one extraction any steps of the others may happen.

What one step does is taken from `Model/Tarball.lean`; `Props/TarRun.lean` shows that an extraction whose steps are not
interrupted does what `extractToDir` says.

Simplifications: linking or copying one file, creating the missing folders of one path, and evicting one package from the cache
are one step each.
-/

set_option linter.unusedSectionVars false

namespace Oro
namespace Tar

/-- the arguments of package.rs:206 `extract_to_dir_inner`, and what the fetcher returns when asked for the tarball -/
structure Job where
  dir : Loc
  cache : Bool
  mode : Mode
  expected : Option Integrity
  net : Option (List Ev)

/-- the loop variables of tarball.rs:212-252 -/
structure Book where
  created : List Loc
  mode : Mode
  idx : Index
  mani : Option Mani

/-- the bookkeeping together with the file system -/
def Book.on (s : Book) (fs : FS) : XSt := ⟨fs, s.created, s.mode, s.idx, s.mani⟩

/-- the bookkeeping of a loop state -/
def XSt.book (x : XSt) : Book := ⟨x.created, x.mode, x.idx, x.mani⟩

/-- files of the cache: path, hash, permission bits -/
abbrev Files := List (List Comp × (Str × Nat))

/-- where an extraction stands -/
inductive PC where
  /-- package.rs:212-216: about to look into the cache's index -/
  | start
  /-- package.rs:285-303: the files of a cached package; the folder of the next one is to be made -/
  | linkDir (m : Mode) (todo : Files) (created : List Loc)
  /-- the file itself -/
  | link (m : Mode) (k : List Comp) (h : Str × Nat) (todo : Files) (created : List Loc)
  /-- package.rs:224-236: the cached package could not be used -/
  | evict
  /-- package.rs:237-259: fetching the tarball -/
  | fetch (cache : Bool)
  /-- tarball.rs:234: making the package's folder -/
  | folder (cache : Bool) (b : Bytes)
  /-- tarball.rs:236-257: the next entry, and its folder -/
  | entry (cache : Bool) (b : Bytes) (todo : List Entry) (s : Book)
  /-- tarball.rs:320-347: a file, without a cache -/
  | plain (b : Bytes) (e : Entry) (todo : List Entry) (s : Book)
  /-- tarball.rs:262-281: a file, into the cache -/
  | commit (b : Bytes) (e : Entry) (todo : List Entry) (s : Book)
  /-- tarball.rs:283: and out of it -/
  | write (b : Bytes) (e : Entry) (todo : List Entry) (s : Book)
  /-- tarball.rs:290-302: looking at the manifest -/
  | manifest (b : Bytes) (e : Entry) (todo : List Entry) (s : Book)
  /-- tarball.rs:303-305: removing a file extracted earlier -/
  | redo (b : Bytes) (e : Entry) (todo : List Entry) (s : Book) (m : Mani) (l : Files)
  /-- tarball.rs:306-307: and extracting it again -/
  | redone (b : Bytes) (e : Entry) (todo : List Entry) (s : Book) (m : Mani) (k : List Comp) (h : Str × Nat) (l : Files)
  /-- tarball.rs:349-357: permission bits of the commands -/
  | bins (cache : Bool) (b : Bytes) (l : List Str) (s : Book)
  /-- tarball.rs:371-388: the entry in the cache's index -/
  | record (cache : Bool) (b : Bytes) (s : Book)
  | done (i : Integrity)
  | failed

/-- over, in success or failure -/
def PC.ended : PC → Bool
  | .done _ | .failed => true
  | _ => false

/-- tarball.rs:236: the first entry -/
def PC.first (created : List Loc) (mode : Mode) : Book := ⟨created, mode, ⟨false, [], []⟩, none⟩

/-- tarball.rs:316-318 after a file, with or without a manifest just read -/
def Book.remember (env : Env) (e : Entry) (s : Book) : Book :=
  { s with idx := { s.idx with files := s.idx.files.insert (subpath e) (env.xxh e.content, e.bits) } }

/-- One step of an extraction. -/
def Job.step (env : Env) (j : Job) (pc : PC) (fs : FS) : PC × FS :=
  match pc with
  | .start =>
    match j.expected, j.cache with
    | some i, true => match fs.index i with
      | none => (.fetch true, fs)
      | some .broken => (.evict, fs)
      | some (.good idx) =>
        (.linkDir (cacheMode idx j.mode) ((env.ord idx.files).map fun kh => (kh.1, cachedBits idx.binPaths kh)) [], fs)
    | _, c => (.fetch c, fs)
  | .linkDir m todo created =>
    match todo with
    | [] => (match j.expected with | some i => .done i | none => .failed, fs)
    | (k, h) :: r => match mkdirp created fs (RPath.goTo j.dir k).dropLast with
      | none => (.evict, fs)
      | some (created, fs) => (.link m k h r created, fs)
  | .link m k h r created =>
    match extractFile env m fs h (RPath.goTo j.dir k) with
    | none => (.evict, fs)
    | some fs => (.linkDir m r created, fs)
  | .evict =>
    match j.expected with
    | none => (.failed, fs)
    | some i => match Tar.evict i fs with
      | none => (.failed, fs)
      | some fs => (.fetch true, fs)
  | .fetch cache =>
    match j.net with
    | none => (.failed, fs)
    | some evs => match Tarball.intoTemp env.digest env.limit (.memory []) ⟨j.expected.map fun i => (i, []), evs⟩ with
      | .error _ => (.failed, fs)
      | .ok temp => (.folder cache temp.bytes, fs)
  | .folder cache b =>
    match mkdirp [] fs j.dir with
    | none => (.failed, fs)
    | some (created, fs) => (.entry cache b (env.untar b).1 (PC.first created j.mode), fs)
  | .entry cache b todo s =>
    match todo with
    | [] => (if (env.untar b).2 then .bins cache b (Mani.binsOf s.mani) s else .failed, fs)
    | e :: r =>
      if e.regular then
        match mkdirp s.created fs (RPath.goTo j.dir (subpath e)).dropLast with
        | none => (.failed, fs)
        | some (created, fs) =>
          (if cache then .commit b e r { s with created := created } else .plain b e r { s with created := created }, fs)
      else (.entry cache b r s, fs)
  | .plain b e r s =>
    let p := RPath.goTo j.dir (subpath e)
    if fs.taken p then (.failed, fs)
    else (.entry false b r s, (fs.create p e.content).setMode fs.next (env.newMode e.bits))
  | .commit b e r s => (.write b e r s, Tar.commit env fs e.content)
  | .write b e r s =>
    match extractFile env s.mode fs (env.xxh e.content, e.bits) (RPath.goTo j.dir (subpath e)) with
    | none => (.failed, fs)
    | some fs =>
      (if subpath e = [Comp.normal kPackageJson] then .manifest b e r s else .entry true b r (s.remember env e), fs)
  | .manifest b e r s =>
    match (fs.files (RPath.goTo j.dir (subpath e))).bind fun i => env.manifest (fs.content i) with
    | none => (.failed, fs)
    | some m =>
      if m.scripts then
        if s.mode.isCopy then
          (.entry true b r ({ s with idx := { s.idx with shouldCopy := true }, mani := some m }.remember env e), fs)
        else (.redo b e r s m (env.ord s.idx.files), fs)
      else (.entry true b r ({ s with mani := some m }.remember env e), fs)
  | .redo b e r s m l =>
    match l with
    | [] =>
      (.entry true b r
        ({ s with mode := .auto, idx := { s.idx with shouldCopy := true }, mani := some m }.remember env e), fs)
    | (k, h) :: l => match fs.remove (RPath.goTo j.dir k) with
      | none => (.failed, fs)
      | some fs => (.redone b e r s m k h l, fs)
  | .redone b e r s m k h l =>
    match extractFile env .auto fs h (RPath.goTo j.dir k) with
    | none => (.failed, fs)
    | some fs => (.redo b e r s m l, fs)
  | .bins cache b l s =>
    match l with
    | [] => (.record cache b s, fs)
    | x :: l => match setBinMode fs (RPath.goTo j.dir (RPath.components x)) with
      | none => (.failed, fs)
      | some fs => (.bins cache b l s, fs)
  | .record cache b s =>
    let i := j.expected.getD (env.sri b)
    (.done i, recordIndex cache i { s.idx with binPaths := s.idx.binPaths ++ Mani.binsOf s.mani } fs)
  | .done i => (.done i, fs)
  | .failed => (.failed, fs)

/-- A machine on which several extractions are under way. -/
structure Runs where
  fs : FS
  pcs : Nat → PC

/-- hoisted.rs:266-350: extractions that are about to start -/
def Runs.init (fs : FS) : Runs := ⟨fs, fun _ => .start⟩

/-- One of the extractions makes a step. -/
def Runs.step (env : Env) (jobs : Nat → Option Job) (w : Runs) (n : Nat) : Runs :=
  match jobs n with
  | none => w
  | some j => ⟨(j.step env (w.pcs n) w.fs).2, upd w.pcs n (j.step env (w.pcs n) w.fs).1⟩

/-- A schedule: which extraction makes the next step. -/
def Runs.run (env : Env) (jobs : Nat → Option Job) (w : Runs) (sched : List Nat) : Runs := sched.foldl (Runs.step env jobs) w

end Tar
end Oro
