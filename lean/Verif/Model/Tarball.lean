import Verif.Model.RustPath
import Verif.Base.IMap
/-
Model of /repo/crates/nassun/src/tarball.rs and of the extraction functions in /repo/crates/nassun/src/package.rs.

Libraries are parameters (`Env`): digests (ssri), gunzip+untar (flate2, tar), the reader of package.json
(`BuildManifest::from_path`), and whether the file system supports reflinks and hard links.  cacache's content store is
part of the modelled file system: its content files are inodes addressed by their xxh3 hash, every read of a content
file verifies the hash first, committing a file renames a fresh temporary file over the content file.

Files have permission bits, by inode.  The bits a file gets when it is created, cloned or copied are parameters; the modes of
folders are left out.

Not modelled: I/O errors other than "already exists", "not found", "is a directory" (a read error of the
network stream is modelled), the retry loop around `hard_link`.
-/

set_option linter.unusedSectionVars false

namespace Oro
namespace Tar

abbrev Bytes := List UInt8

/-- ssri's `Integrity`: hashes (algorithm, base64 digest), strongest algorithm first -/
structure Integrity where
  hashes : List (Nat × Str)
  deriving DecidableEq, Repr

/-- `IntegrityChecker::result`: the bytes are hashed with the strongest algorithm of the expected integrity and the
digest must be one of those listed for that algorithm. `digest alg bytes` is the base64 digest. -/
def Integrity.check (digest : Nat → Bytes → Str) (i : Integrity) (b : Bytes) : Bool :=
  match i.hashes with
  | [] => false
  | (a, _) :: _ => i.hashes.any fun h => h.1 = a ∧ h.2 = digest a b

/-- What one `poll_read` of the underlying stream returns: some bytes (none: end of stream) or an error. -/
inductive Ev where
  | data (b : Bytes)
  | fail
  deriving DecidableEq, Repr

/-- tarball.rs:43-47 `Tarball`; the checker keeps the bytes it was fed -/
structure Tarball where
  checker : Option (Integrity × Bytes)
  evs : List Ev
  deriving DecidableEq, Repr

/-- tarball.rs:49-58 `Tarball::new` -/
def Tarball.new (evs : List Ev) (i : Integrity) : Tarball := ⟨some (i, []), evs⟩

/-- tarball.rs:60-67 `Tarball::new_unchecked` -/
def Tarball.newUnchecked (evs : List Ev) : Tarball := ⟨none, evs⟩

inductive RErr where
  | io | integrity
  deriving DecidableEq, Repr

/-- one read of the underlying stream; a finished stream keeps returning 0 bytes -/
def readEv : List Ev → Except RErr Bytes × List Ev
  | [] => (.ok [], [])
  | .data b :: r => (.ok b, r)
  | .fail :: r => (.error .io, r)

/-- tarball.rs:176-193: feeding the checker what was read -/
def Tarball.feed (digest : Nat → Bytes → Str) (c : Option (Integrity × Bytes)) (b : Bytes) (r : List Ev) :
    Except RErr Bytes × Tarball :=
  match c with
  | none => (.ok b, ⟨none, r⟩)
  | some (i, seen) =>
    if b ≠ [] then (.ok b, ⟨some (i, seen ++ b), r⟩)
    else if i.check digest seen then (.ok [], ⟨none, r⟩)
    else (.error .integrity, ⟨none, r⟩)

/-- tarball.rs:168-195 `Tarball::poll_read`: the bytes delivered to the reader (none: end of data) -/
def Tarball.pollRead (digest : Nat → Bytes → Str) (t : Tarball) : Except RErr Bytes × Tarball :=
  match readEv t.evs with
  | (.error e, r) => (.error e, { t with evs := r })
  | (.ok b, r) => Tarball.feed digest t.checker b r

/-- Any consumer that reads until the end of data or the first error: the bytes it got. (Written as a recursion over
the stream; a finished stream has nothing more to deliver.) -/
def readFrom (digest : Nat → Bytes → Str) : List Ev → Option (Integrity × Bytes) → Except RErr Bytes
  | [], c => match Tarball.pollRead digest ⟨c, []⟩ with
    | (.error e, _) => .error e
    | (.ok b, _) => .ok b
  | ev :: r, c => match Tarball.pollRead digest ⟨c, ev :: r⟩ with
    | (.error e, _) => .error e
    | (.ok [], _) => .ok []
    | (.ok b, t') => match readFrom digest r t'.checker with
      | .error e => .error e
      | .ok rest => .ok (b ++ rest)

def Tarball.readAll (digest : Nat → Bytes → Str) (t : Tarball) : Except RErr Bytes := readFrom digest t.evs t.checker

/-- The two forms of the buffer of tarball.rs:93-139: everything in memory, or (after the limit was crossed) the
buffer so far, which stays allocated, and the temporary file. -/
inductive Temp where
  | memory (vec : Bytes)
  | file (vec : Bytes) (tempfile : Bytes)
  deriving DecidableEq, Repr

/-- tarball.rs:105-135: one chunk -/
def Temp.push (limit : Nat) : Temp → Bytes → Temp
  | .memory vec, b => if vec.length + b.length > limit then .file vec (vec ++ b) else .memory (vec ++ b)
  | .file vec f, b => .file vec (f ++ b)

/-- the bytes held in memory -/
def Temp.inMemory : Temp → Nat
  | .memory v => v.length
  | .file v _ => v.length

/-- what reading the temporary from its start yields (tarball.rs:205-213, 375-392: rewind and read) -/
def Temp.bytes : Temp → Bytes
  | .memory v => v
  | .file _ f => f

/-- tarball.rs:92-139 `into_temp`, from a given buffer state -/
def bufferFrom (digest : Nat → Bytes → Str) (limit : Nat) : List Ev → Option (Integrity × Bytes) → Temp → Except RErr Temp
  | [], c, s => match Tarball.pollRead digest ⟨c, []⟩ with
    | (.error e, _) => .error e
    | (.ok _, _) => .ok s
  | ev :: r, c, s => match Tarball.pollRead digest ⟨c, ev :: r⟩ with
    | (.error e, _) => .error e
    | (.ok [], _) => .ok s
    | (.ok b, t') => bufferFrom digest limit r t'.checker (s.push limit b)

def Tarball.intoTemp (digest : Nat → Bytes → Str) (limit : Nat) (s : Temp) (t : Tarball) : Except RErr Temp :=
  bufferFrom digest limit t.evs t.checker s

/-! ### Extraction -/

/-- package.rs:22-35 -/
inductive Mode where
  | auto | copy | reflink | autoHardlink | hardlink
  deriving DecidableEq, Repr

/-- package.rs:38-45 -/
def Mode.isCopy : Mode → Bool
  | .copy | .auto | .reflink => true
  | _ => false

/-- An archive entry. `header` is the path in the entry's own header block, `full` the entry's actual path, which
differs from it when the archive carries it in a separate long-name record. -/
structure Entry where
  header : Str
  full : Str
  regular : Bool
  content : Bytes
  /-- `header.mode()`, or 0o644 if that cannot be read (tarball.rs:245) -/
  mode : Nat
  deriving DecidableEq, Repr

/-- the parts of a `BuildManifest` that extraction looks at: is there an install script, and the bin targets -/
structure Mani where
  scripts : Bool
  bins : List Str
  deriving DecidableEq, Repr

/-- tarball.rs:245: the permission bits of an extracted file -/
def Entry.bits (e : Entry) : Nat := e.mode ||| 0o600

/-- tarball.rs:413-419 `TarballIndex`: files are listed with the hash of their contents and their permission bits -/
structure Index where
  shouldCopy : Bool
  binPaths : List Str
  files : IMap (List Comp) (Str × Nat)
  deriving DecidableEq, Repr

/-- a cacache index entry: its metadata is missing or does not decode, or it is a `TarballIndex` -/
inductive CEntry where
  | broken
  | good (i : Index)
  deriving DecidableEq, Repr

/-- The file system and the cache. Files are names of inodes, so that hard links are visible. -/
structure FS where
  next : Nat
  content : Nat → Bytes
  /-- permission bits -/
  mode : Nat → Nat
  files : Loc → Option Nat
  dirs : Loc → Bool
  /-- cacache's content files, by hash -/
  store : Str → Option Nat
  /-- cacache's index, by integrity (the key is `nassun::package::{integrity}`, tarball.rs:409-412) -/
  index : Integrity → Option CEntry

/-- external behaviour -/
structure Env where
  digest : Nat → Bytes → Str
  /-- the base64 xxh3 digest, cacache's address of a content file -/
  xxh : Bytes → Str
  /-- gunzip and list the entries; `false` if the archive is damaged after these -/
  untar : Bytes → List Entry × Bool
  manifest : Bytes → Option Mani
  reflinks : Bool
  hardlinks : Bool
  /-- the iteration order of a hash map -/
  ord : IMap (List Comp) (Str × Nat) → List (List Comp × (Str × Nat))
  /-- permission bits of cacache's content files -/
  storeMode : Nat
  /-- permission bits of a file created with the given ones (the process's umask) -/
  newMode : Nat → Nat
  /-- permission bits of a reflink of a file with the given ones -/
  cloneMode : Nat → Nat
  /-- permission bits of a copy of a file with the given ones, over a file with the given ones if there is one -/
  copyMode : Nat → Option Nat → Nat
  /-- tarball.rs:41 -/
  limit : Nat

def upd {α β : Type} [DecidableEq α] (f : α → β) (a : α) (b : β) : α → β := fun x => if x = a then b else f x

/-- ssri: the integrity computed when none was expected (tarball.rs:228, 361) -/
def Env.sri (env : Env) (b : Bytes) : Integrity := ⟨[(0, env.digest 0 b)]⟩

/-- creating a new file with given contents -/
def FS.create (fs : FS) (p : Loc) (c : Bytes) : FS :=
  { fs with next := fs.next + 1, content := upd fs.content fs.next c, files := upd fs.files p (some fs.next) }

/-- cacache: open a content file and verify it against its address -/
def FS.verified (env : Env) (fs : FS) (h : Str) : Option Nat :=
  match fs.store h with
  | none => none
  | some i => if env.xxh (fs.content i) = h then some i else none

/-- giving an inode permission bits -/
def FS.setMode (fs : FS) (i m : Nat) : FS := { fs with mode := upd fs.mode i m }

/-- `std::fs::set_permissions` of the file at a location; folders: left out -/
def FS.chmod (fs : FS) (p : Loc) (m : Nat) : FS :=
  match fs.files p with
  | none => fs
  | some i => fs.setMode i m

def FS.taken (fs : FS) (p : Loc) : Bool := (fs.files p).isSome || fs.dirs p

/-- tarball.rs:517-522 `hard_link_from_cache`: fails if the name is taken -/
def hardLink (env : Env) (fs : FS) (h : Str) (p : Loc) : Option FS :=
  match fs.verified env h with
  | none => none
  | some i => if env.hardlinks && !fs.taken p then some { fs with files := upd fs.files p (some i) } else none

/-- tarball.rs:510-515 `reflink_from_cache`: fails if the name is taken -/
def reflink (env : Env) (fs : FS) (h : Str) (p : Loc) : Option FS :=
  match fs.verified env h with
  | none => none
  | some i => if env.reflinks && !fs.taken p then some ((fs.create p (fs.content i)).setMode fs.next (env.cloneMode (fs.mode i))) else none

/-- `std::fs::copy` onto an existing file: the file is truncated, then the source is read into it; if both are the
same file nothing is left to read. -/
def FS.overwrite (fs : FS) (src dst : Nat) : FS :=
  { fs with content := upd fs.content dst (if src = dst then [] else fs.content src) }

/-- tarball.rs:503-508 `copy_from_cache` -/
def copyTo (env : Env) (fs : FS) (h : Str) (p : Loc) : Option FS :=
  match fs.verified env h with
  | none => none
  | some i => if fs.dirs p then none else
    match fs.files p with
    | some j => some ((fs.overwrite i j).setMode j (env.copyMode (fs.mode i) (some (fs.mode j))))
    | none => some ((fs.create p (fs.content i)).setMode fs.next (env.copyMode (fs.mode i) none))

/-- tarball.rs:440-465: the contents of one file of the cache -/
def linkFile (env : Env) (m : Mode) (fs : FS) (h : Str) (p : Loc) : Option FS :=
  match m with
  | .auto | .reflink => (reflink env fs h p).or (copyTo env fs h p)
  | .autoHardlink | .hardlink => ((hardLink env fs h p).or (reflink env fs h p)).or (copyTo env fs h p)
  | .copy => copyTo env fs h p

/-- tarball.rs:432-480 `extract_from_cache` (of one file): permission bits other than 0o644 are set -/
def extractFile (env : Env) (m : Mode) (fs : FS) (h : Str × Nat) (p : Loc) : Option FS :=
  (linkFile env m fs h.1 p).map fun fs => if h.2 = 0o644 then fs else fs.chmod p h.2

/-- cacache `WriteOpts::open_hash_sync`, write, `commit` (tarball.rs:263-281): a temporary file is renamed to the
content file -/
def commit (env : Env) (fs : FS) (c : Bytes) : FS :=
  { fs with
    next := fs.next + 1
    content := upd fs.content fs.next c
    mode := upd fs.mode fs.next env.storeMode
    store := upd fs.store (env.xxh c) (some fs.next) }

/-- `std::fs::create_dir`: fails if the name is taken or the parent folder is missing -/
def createDir (fs : FS) (p : Loc) : Option FS :=
  if fs.taken p || !(fs.dirs p.dropLast) then none else some { fs with dirs := upd fs.dirs p true }

/-- `std::fs::create_dir_all`: fails if a file is in the way -/
def createDirAll (fs : FS) (p : Loc) : Option FS :=
  if p.inits.any fun q => (fs.files q).isSome then none
  else some { fs with dirs := fun q => fs.dirs q || p.inits.contains q }

/-- tarball.rs:525-556 `mkdirp`, with the set of folders known to exist -/
def mkdirp (created : List Loc) (fs : FS) (p : Loc) : Option (List Loc × FS) :=
  if created.contains p then some (created, fs)
  else if p = [] || created.contains p.dropLast then (createDir fs p).map fun fs => (p :: created, fs)
  else (createDirAll fs p).map fun fs => (p.inits ++ created, fs)

/-- the loop variables of tarball.rs:212-252 -/
structure XSt where
  fs : FS
  created : List Loc
  mode : Mode
  idx : Index
  mani : Option Mani

/-- tarball.rs:404-407, 249-252 `strip_one`: the entry's path without its first component -/
def subpath (e : Entry) : List Comp := (RPath.components e.header).tail

def kPackageJson : Str := ['p','a','c','k','a','g','e','.','j','s','o','n']

/-- `std::fs::remove_file` -/
def FS.remove (fs : FS) (p : Loc) : Option FS :=
  if (fs.files p).isSome then some { fs with files := upd fs.files p none } else none

/-- tarball.rs:303-309: replacing the files extracted so far; an error leaves what was done -/
def reExtract (env : Env) (dir : Loc) : List (List Comp × (Str × Nat)) → FS → Except FS FS
  | [], fs => .ok fs
  | (k, h) :: r, fs =>
    match fs.remove (RPath.goTo dir k) with
    | none => .error fs
    | some fs => match extractFile env .auto fs h (RPath.goTo dir k) with
      | none => .error fs
      | some fs => reExtract env dir r fs

/-- tarball.rs:297-313: the package declares install scripts -/
def onScripts (env : Env) (dir : Loc) (m : Mani) (s : XSt) : Except FS XSt :=
  if m.scripts then
    if s.mode.isCopy then .ok { s with idx := { s.idx with shouldCopy := true } }
    else match reExtract env dir (env.ord s.idx.files) s.fs with
      | .error fs => .error fs
      | .ok fs => .ok { s with fs := fs, mode := .auto, idx := { s.idx with shouldCopy := true } }
  else .ok s

/-- tarball.rs:289-315: looking at the manifest just extracted -/
def onManifest (env : Env) (dir : Loc) (p : Loc) (s : XSt) : Except FS XSt :=
  match (s.fs.files p).bind fun i => env.manifest (s.fs.content i) with
  | none => .error s.fs
  | some m => match onScripts env dir m s with
    | .error fs => .error fs
    | .ok s => .ok { s with mani := some m }

/-- tarball.rs:316-318 -/
def remember (env : Env) (e : Entry) (s : XSt) : XSt :=
  { s with idx := { s.idx with files := s.idx.files.insert (subpath e) (env.xxh e.content, e.bits) } }

/-- tarball.rs:262-318: a regular file, with a cache -/
def putCached (env : Env) (dir : Loc) (e : Entry) (s : XSt) : Except FS XSt :=
  let p := RPath.goTo dir (subpath e)
  let fs := commit env s.fs e.content
  match extractFile env s.mode fs (env.xxh e.content, e.bits) p with
  | none => .error fs
  | some fs =>
    if subpath e = [Comp.normal kPackageJson] then
      match onManifest env dir p { s with fs := fs } with
      | .error fs => .error fs
      | .ok s => .ok (remember env e s)
    else .ok (remember env e { s with fs := fs })

/-- tarball.rs:320-347: a regular file, without a cache; the file must not exist -/
def putPlain (env : Env) (dir : Loc) (e : Entry) (s : XSt) : Except FS XSt :=
  let p := RPath.goTo dir (subpath e)
  if s.fs.taken p then .error s.fs else .ok { s with fs := (s.fs.create p e.content).setMode s.fs.next (env.newMode e.bits) }

/-- tarball.rs:236-358: one entry. Only regular files are written. -/
def extractEntry (env : Env) (dir : Loc) (cache : Bool) (s : XSt) (e : Entry) : Except FS XSt :=
  if e.regular then
    match mkdirp s.created s.fs (RPath.goTo dir (subpath e)).dropLast with
    | none => .error s.fs
    | some (created, fs) =>
      if cache then putCached env dir e { s with created := created, fs := fs }
      else putPlain env dir e { s with created := created, fs := fs }
  else .ok s

def extractEntries (env : Env) (dir : Loc) (cache : Bool) : List Entry → XSt → Except FS XSt
  | [], s => .ok s
  | e :: r, s => match extractEntry env dir cache s e with
    | .error fs => .error fs
    | .ok s => extractEntries env dir cache r s

/-- tarball.rs:483-502 `set_bin_mode`: everybody may execute the file; an error if there is nothing at the location -/
def setBinMode (fs : FS) (p : Loc) : Option FS :=
  match fs.files p with
  | some i => some (fs.setMode i (fs.mode i ||| 0o111))
  | none => if fs.dirs p then some fs else none

/-- tarball.rs:349-357: the targets of the manifest's commands; an error leaves what was done -/
def setBinModes (dir : Loc) : List Str → FS → Except FS FS
  | [], fs => .ok fs
  | b :: r, fs => match setBinMode fs (RPath.goTo dir (RPath.components b)) with
    | none => .error fs
    | some fs => setBinModes dir r fs

/-- the targets of a manifest's commands; none without a manifest -/
def Mani.binsOf : Option Mani → List Str
  | none => []
  | some m => m.bins

/-- tarball.rs:374-388: recording the package in the cache's index -/
def recordIndex (cache : Bool) (i : Integrity) (idx : Index) (fs : FS) : FS :=
  if cache then { fs with index := upd fs.index i (some (.good idx)) } else fs

/-- tarball.rs:353-390: after the last entry -/
def finish (env : Env) (dir : Loc) (cache : Bool) (expected : Option Integrity) (bytes : Bytes) (s : XSt) :
    Option Integrity × FS :=
  match setBinModes dir (Mani.binsOf s.mani) s.fs with
  | .error fs => (none, fs)
  | .ok fs =>
    let i := expected.getD (env.sri bytes)
    (some i, recordIndex cache i { s.idx with binPaths := s.idx.binPaths ++ Mani.binsOf s.mani } fs)

/-- tarball.rs:206-391 `TempTarball::extract_to_dir` -/
def extractTemp (env : Env) (dir : Loc) (cache : Bool) (expected : Option Integrity) (mode : Mode) (bytes : Bytes)
    (fs : FS) : Option Integrity × FS :=
  match mkdirp [] fs dir with
  | none => (none, fs)
  | some (created, fs) =>
    match extractEntries env dir cache (env.untar bytes).1 ⟨fs, created, mode, ⟨false, [], []⟩, none⟩ with
    | .error fs => (none, fs)
    | .ok s => if (env.untar bytes).2 then finish env dir cache expected bytes s else (none, s.fs)

/-- tarball.rs:74-88 `extract_from_tarball_data`; `expected` is the integrity the tarball was opened with -/
def extractData (env : Env) (dir : Loc) (cache : Bool) (mode : Mode) (expected : Option Integrity) (evs : List Ev)
    (fs : FS) : Option Integrity × FS :=
  match Tarball.intoTemp env.digest env.limit (.memory []) ⟨expected.map fun i => (i, []), evs⟩ with
  | .error _ => (none, fs)
  | .ok temp => extractTemp env dir cache expected mode temp.bytes fs

/-- The text of a path: its names with `/` between them.  (The index of the code keeps the text that is left of the archive's
path; here paths are kept as lists of names, so different spellings of one path are not told apart.) -/
def pathText : List Comp → Str
  | [] => []
  | [c] => c.text
  | c :: cs => c.text ++ '/' :: pathText cs

/-- package.rs:296-300: the permission bits of a cached file: those whose path is, as text, the target of a command may be
executed by everybody -/
def cachedBits (bins : List Str) (kh : List Comp × (Str × Nat)) : Str × Nat :=
  (kh.2.1, if bins.contains (pathText kh.1) then kh.2.2 ||| 0o111 else kh.2.2)

/-- package.rs:285-303: the files of a cached package -/
def linkAll (env : Env) (dir : Loc) (m : Mode) : List (List Comp × (Str × Nat)) → List Loc → FS → Except FS FS
  | [], _, fs => .ok fs
  | (k, h) :: r, created, fs =>
    match mkdirp created fs (RPath.goTo dir k).dropLast with
    | none => .error fs
    | some (created, fs) => match extractFile env m fs h (RPath.goTo dir k) with
      | none => .error fs
      | some fs => linkAll env dir m r created fs

/-- package.rs:281-288 -/
def cacheMode (idx : Index) (m : Mode) : Mode := if idx.shouldCopy && !m.isCopy then .copy else m

/-- package.rs:263-308 `extract_from_cache` -/
def extractCached (env : Env) (dir : Loc) (m : Mode) (e : CEntry) (fs : FS) : Except FS FS :=
  match e with
  | .broken => .error fs
  | .good idx => linkAll env dir (cacheMode idx m) ((env.ord idx.files).map fun kh => (kh.1, cachedBits idx.binPaths kh)) [] fs

/-- package.rs:323-346 `clean_from_cache`; `none`: it fails -/
def clean (i : Integrity) (e : CEntry) (fs : FS) : Option FS :=
  match e with
  | .broken => none
  | .good idx => some { fs with
      store := fun h => if idx.files.any (fun f => f.2.1 = h) then none else fs.store h
      index := upd fs.index i none }

/-- package.rs:224-231: removing the entry that could not be used, if it is still there -/
def evict (i : Integrity) (fs : FS) : Option FS :=
  match fs.index i with
  | none => some fs
  | some e => clean i e fs

/-- package.rs:237-241, 244-248, 251-259: fetch the tarball and extract it -/
def viaNet (env : Env) (dir : Loc) (cache : Bool) (mode : Mode) (expected : Option Integrity)
    (net : Option (List Ev)) (fs : FS) : Option Integrity × FS :=
  match net with
  | none => (none, fs)
  | some evs => extractData env dir cache mode expected evs fs

/-- package.rs:223-241: a cached package could not be used -/
def fallback (env : Env) (dir : Loc) (mode : Mode) (i : Integrity) (net : Option (List Ev)) (fs : FS) :
    Option Integrity × FS :=
  match evict i fs with
  | none => (none, fs)
  | some fs => viaNet env dir true mode (some i) net fs

/-- package.rs:206-260 `extract_to_dir_inner`. `net` is what the fetcher returns when asked for the tarball. -/
def extractToDir (env : Env) (dir : Loc) (cache : Bool) (mode : Mode) (expected : Option Integrity)
    (net : Option (List Ev)) (fs : FS) : Option Integrity × FS :=
  match expected with
  | none => viaNet env dir cache mode none net fs
  | some i =>
    if cache then
      match fs.index i with
      | none => viaNet env dir cache mode (some i) net fs
      | some e => match extractCached env dir mode e fs with
        | .ok fs => (some i, fs)
        | .error fs => fallback env dir mode i net fs
    else viaNet env dir cache mode (some i) net fs

end Tar
end Oro
