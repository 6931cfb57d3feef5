import Verif.Spec.Tarball
import Verif.Model.TarRun
/-
What C91 talks about.
-/

set_option linter.unusedSectionVars false

namespace Oro
namespace Tar

/-- The tarballs an extraction accepts: those with the expected integrity; without one, what the network delivers. -/
def Job.Fits (env : Env) (j : Job) (t : Bytes) : Prop :=
  match j.expected with
  | some i => Matches env.digest i t
  | none => ∃ evs, j.net = some evs ∧ whole evs = some t

/-- Extractions of given tarballs that have nothing to do with each other: each accepts one tarball only; its files have ordinary
paths, different contents go to different places; and no two of the tarballs have files that go to the same place.  (One package's
folder may well be inside another's.) -/
structure Separate (env : Env) (jobs : Nat → Option Job) (tar : Nat → Bytes) : Prop where
  fits : ∀ n j, jobs n = some j → ∀ t, j.Fits env t → t = tar n
  plain : ∀ n j, jobs n = some j → Plain (env.untar (tar n)).1
  distinct : ∀ n j, jobs n = some j → Distinct j.dir (env.untar (tar n)).1
  apart : ∀ n j, jobs n = some j → ∀ n' j', jobs n' = some j' → n ≠ n' →
    ∀ e ∈ (env.untar (tar n)).1, e.regular = true → ∀ e' ∈ (env.untar (tar n')).1, e'.regular = true →
      place j.dir e ≠ place j'.dir e'

/-- What came of an extraction: nothing yet, success with an integrity, or failure. -/
def PC.outcome : PC → Option (Option Integrity)
  | .done i => some (some i)
  | .failed => some none
  | _ => none

/-- There is nothing in any of the folders. -/
def AllVacant (jobs : Nat → Option Job) (fs : FS) : Prop := ∀ n j, jobs n = some j → Vacant fs j.dir

/-- A location in one of the folders. -/
def InSome (jobs : Nat → Option Job) (p : Loc) : Prop := ∃ n j, jobs n = some j ∧ Inside j.dir p

/-- The file at `p` is a file of one of the tarballs, at its place, up to collisions of the content hash. -/
def FromSome (env : Env) (jobs : Nat → Option Job) (tar : Nat → Bytes) (fs : FS) (p : Loc) (i : Nat) : Prop :=
  ∃ n j, jobs n = some j ∧ ∃ e ∈ (env.untar (tar n)).1, e.regular = true ∧ place j.dir e = p ∧
    env.xxh (fs.content i) = env.xxh e.content

/-- the name of the folder that holds dependencies -/
def kNodeModules : Str := "node_modules".toList

/-- Packages laid out as the linkers lay them out: every package has a folder of its own, and a package's folder is inside
another's only if it is in the other's `node_modules`. -/
def Laid (jobs : Nat → Option Job) : Prop :=
  ∀ n j, jobs n = some j → ∀ n' j', jobs n' = some j' → n ≠ n' →
    j.dir ≠ j'.dir ∧ (Inside j.dir j'.dir → Inside (j.dir ++ [kNodeModules]) j'.dir)

/-- No file of the archive is in its own `node_modules`. -/
def Unbundled (es : List Entry) : Prop :=
  ∀ e ∈ es, e.regular = true → (RPath.components e.header).tail.head? ≠ some (.normal kNodeModules)

/-- Every readable entry of the cache's index lists the files of a tarball that has the integrity it is filed under. -/
def HonestFiles (env : Env) (fs : FS) : Prop :=
  ∀ k idx, fs.index k = some (.good idx) → ∃ t, Matches env.digest k t ∧ (env.untar t).2 = true ∧
    idx.files = listing env (env.untar t).1 []

/-- Histories of a machine: any number of extractions at the same time, of whatever, wherever, as far as they get; and anything
may happen to the files and to the contents of the cache, except that nobody else writes readable entries into its index. -/
inductive History (env : Env) : FS → Prop
  | init (fs : FS) : Sane fs → (∀ k, fs.index k = none) → History env fs
  | batch (fs : FS) (jobs : Nat → Option Job) (sched : List Nat) :
      History env fs → History env ((Runs.init fs).run env jobs sched).fs
  | other (fs fs' : FS) : History env fs → Sane fs' →
      (∀ k idx, fs'.index k = some (.good idx) → fs.index k = some (.good idx)) → History env fs'

/-- The contents of all these files are in the cache, undamaged. -/
def Stocked (env : Env) (fs : FS) (l : Files) : Prop :=
  ∀ kh ∈ l, ∃ i, fs.store kh.2.1 = some i ∧ env.xxh (fs.content i) = kh.2.1

/-- An archive with nothing wrong: no file has the path of another or of a folder of another, the manifest can be read, and the
targets of commands are files of the archive. -/
structure Sound (env : Env) (es : List Entry) : Prop where
  apart : (es.filter fun e => e.regular).Pairwise fun a b =>
    ¬ (RPath.components a.header).tail <+: (RPath.components b.header).tail ∧
    ¬ (RPath.components b.header).tail <+: (RPath.components a.header).tail
  named : ∀ e ∈ es, e.regular = true → (RPath.components e.header).tail ≠ []
  manifest : ∀ e ∈ es, e.regular = true → (RPath.components e.header).tail = [.normal kPackageJson] → env.manifest e.content ≠ none
  commands : ∀ x ∈ commands env es, ∃ e ∈ es, e.regular = true ∧ ∀ dir, RPath.goTo dir (RPath.components x) = place dir e

/-- No two files with the same content hash are read as different manifests. -/
def NoCol (env : Env) : Prop := ∀ c c', env.xxh c = env.xxh c' → env.manifest c = env.manifest c'

/-- What an extraction needs: the network delivers its tarball, or the package is in the cache. -/
def Served (j : Job) (t : Bytes) (fs : FS) : Prop :=
  (∃ evs, j.net = some evs ∧ whole evs = some t) ∨
  (j.cache = true ∧ ∃ i idx, j.expected = some i ∧ fs.index i = some (.good idx))

/-- Extractions of sound archives that can be fetched or are in the cache undamaged, into folders laid out as the linkers do it, in
which there is nothing. -/
structure Ready (env : Env) (jobs : Nat → Option Job) (tar : Nat → Bytes) (fs : FS) : Prop where
  laid : Laid jobs
  below : ∀ n j, jobs n = some j → j.dir ≠ []
  files : AllVacant jobs fs
  above : ∀ n j, jobs n = some j → ∀ q, q <+: j.dir → fs.files q = none
  dirs : ∀ n j, jobs n = some j → ∀ d, Inside j.dir d → d ≠ j.dir → fs.dirs d = false
  fits : ∀ n j, jobs n = some j → ∀ t, j.Fits env t ↔ t = tar n
  complete : ∀ n j, jobs n = some j → (env.untar (tar n)).2 = true
  plain : ∀ n j, jobs n = some j → Plain (env.untar (tar n)).1
  unbundled : ∀ n j, jobs n = some j → Unbundled (env.untar (tar n)).1
  sound : ∀ n j, jobs n = some j → Sound env (env.untar (tar n)).1
  served : ∀ n j, jobs n = some j → Served j (tar n) fs
  cached : ∀ n j, jobs n = some j → ∀ i, j.expected = some i → ∀ ce, fs.index i = some ce →
    ∃ idx, ce = .good idx ∧ Stocked env fs idx.files

end Tar
end Oro
