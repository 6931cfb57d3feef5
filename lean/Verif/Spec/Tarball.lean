import Verif.Model.Tarball
/-
What C23-C27 talk about, independent of how the code does it.
-/

set_option linter.unusedSectionVars false

namespace Oro
namespace Tar

/-- Everything a byte stream delivers up to its end; `none` if it breaks off with an error. -/
def whole : List Ev → Option Bytes
  | [] => some []
  | .data [] :: _ => some []
  | .data b :: r => (whole r).map (b ++ ·)
  | .fail :: _ => none

/-- Data has an integrity: of the digests listed, those of the first (strongest) algorithm count, and one of them is the
data's. -/
def Matches (digest : Nat → Bytes → Str) (i : Integrity) (b : Bytes) : Prop :=
  ∃ a, i.hashes.head?.map Prod.fst = some a ∧ (a, digest a b) ∈ i.hashes

/-- what a reader gets from its first `n` reads, whatever it does with errors -/
def reads (digest : Nat → Bytes → Str) : Nat → Tarball → List (Except RErr Bytes)
  | 0, _ => []
  | n + 1, t => (t.pollRead digest).1 :: reads digest n (t.pollRead digest).2

/-- the bytes delivered by some reads -/
def delivered : List (Except RErr Bytes) → Bytes
  | [] => []
  | .ok b :: r => b ++ delivered r
  | .error _ :: r => delivered r

/-- A location inside a folder (or the folder itself). -/
def Inside (dir p : Loc) : Prop := dir <+: p

/-- No step of the path leaves the folder it starts in: at no point are there more `..` than names before it. -/
def StaysBelow : Nat → List Comp → Prop
  | _, [] => True
  | n, .normal _ :: cs => StaysBelow (n + 1) cs
  | n, .cur :: cs => StaysBelow n cs
  | _, .root :: _ => False
  | 0, .parent :: _ => False
  | n + 1, .parent :: cs => StaysBelow n cs

instance decStaysBelow : (n : Nat) → (cs : List Comp) → Decidable (StaysBelow n cs)
  | _, [] => .isTrue trivial
  | n, .normal _ :: cs => decStaysBelow (n + 1) cs
  | n, .cur :: cs => decStaysBelow n cs
  | _, .root :: _ => .isFalse id
  | 0, .parent :: _ => .isFalse id
  | n + 1, .parent :: cs => decStaysBelow n cs

/-- The location of an archive entry extracted into `dir`: its path without the first component. -/
def place (dir : Loc) (e : Entry) : Loc := RPath.goTo dir (RPath.components e.header).tail

/-- No file of the archive is placed outside the folder. -/
def Contained (es : List Entry) : Prop := ∀ e ∈ es, e.regular = true → StaysBelow 0 (RPath.components e.header).tail

/-- No two files of the archive are placed at the same location. -/
def Distinct (dir : Loc) (es : List Entry) : Prop :=
  ∀ e ∈ es, e.regular = true → ∀ e' ∈ es, e'.regular = true → place dir e = place dir e' → e.content = e'.content

/-- There is nothing at or below a location. -/
def Vacant (fs : FS) (dir : Loc) : Prop := ∀ p, Inside dir p → fs.files p = none

/-- A file that is also one of the cache's content files. -/
def SharedWithCache (fs : FS) (p : Loc) : Prop := ∃ i h, fs.files p = some i ∧ fs.store h = some i

/-- A file exists at `p` and holds `c`. -/
def Holds (fs : FS) (p : Loc) (c : Bytes) : Prop := ∃ i, fs.files p = some i ∧ fs.content i = c

/-- A file system in which inode numbers are allocated in order. -/
def Sane (fs : FS) : Prop := (∀ p i, fs.files p = some i → i < fs.next) ∧ (∀ h i, fs.store h = some i → i < fs.next)

/-- The archive's package.json declares an install script. -/
def HasScripts (env : Env) (es : List Entry) : Prop :=
  ∃ e ∈ es, e.regular = true ∧ (RPath.components e.header).tail = [.normal kPackageJson] ∧
    ∃ m, env.manifest e.content = some m ∧ m.scripts = true

/-- Every file of the archive has an ordinary path (names only, no `..`), apart from its first component. -/
def Plain (es : List Entry) : Prop :=
  ∀ e ∈ es, e.regular = true → ∀ c ∈ (RPath.components e.header).tail, ∃ s, c = .normal s

/-- The files of an archive with their content hashes and permission bits; of several entries with one path the last counts. -/
def listing (env : Env) (es : List Entry) (m : IMap (List Comp) (Str × Nat)) : IMap (List Comp) (Str × Nat) :=
  es.foldl (fun m e => if e.regular then
    m.insert (RPath.components e.header).tail (env.xxh e.content, e.mode ||| 0o600) else m) m

/-- The manifest of an archive: what its last package.json holds, `m` if it has none. -/
def manifestOf (env : Env) (es : List Entry) (m : Option Mani) : Option Mani :=
  es.foldl (fun m e => if e.regular = true ∧ (RPath.components e.header).tail = [.normal kPackageJson]
    then env.manifest e.content else m) m

/-- The targets of the commands of an archive, as its manifest spells them. -/
def commands (env : Env) (es : List Entry) : List Str :=
  match manifestOf env es none with
  | none => []
  | some m => m.bins

/-- Every readable entry of the cache's index describes a tarball that has the integrity it is filed under: its files, their
permission bits, its commands, and whether it has install scripts. -/
def Honest (env : Env) (fs : FS) : Prop :=
  ∀ k idx, fs.index k = some (.good idx) → ∃ t, Matches env.digest k t ∧ (env.untar t).2 = true ∧
    idx.files = listing env (env.untar t).1 [] ∧ idx.binPaths = commands env (env.untar t).1 ∧ (HasScripts env (env.untar t).1 → idx.shouldCopy = true)

/-- Histories of a machine: packages are extracted, and between extractions anything may happen to its files and to
the contents of the cache, except that nobody else writes readable entries into the cache's index. -/
inductive Reach (env : Env) : FS → Prop
  | init (fs : FS) : Sane fs → (∀ k, fs.index k = none) → Reach env fs
  | extract (fs : FS) (dir : Loc) (cache : Bool) (mode : Mode) (ex : Option Integrity) (net : Option (List Ev)) :
      Reach env fs → Reach env (extractToDir env dir cache mode ex net fs).2
  | other (fs fs' : FS) : Reach env fs → Sane fs' →
      (∀ k idx, fs'.index k = some (.good idx) → fs.index k = some (.good idx)) → Reach env fs'

/-- The folder `dir` holds exactly the files of the archive, up to collisions of the content hash. -/
def Installed (env : Env) (dir : Loc) (es : List Entry) (fs : FS) : Prop :=
  (∀ e ∈ es, e.regular = true → ∃ c, Holds fs (place dir e) c ∧ env.xxh c = env.xxh e.content) ∧
  (∀ p, Inside dir p → fs.files p ≠ none → ∃ e ∈ es, e.regular = true ∧ place dir e = p)

end Tar
end Oro
