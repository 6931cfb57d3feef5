import Verif.Model.RustPath
import Verif.Base.IMap
/-
Model of `BuildManifest::normalize`, /repo/crates/oro-common/src/build_manifest.rs:67-156 (Unix).
-/

set_option linter.unusedSectionVars false

namespace Oro
namespace Bins

/-- manifest.rs `Bin` -/
inductive Bin where
  | str (p : Str)
  | hash (m : IMap Str Str)
  | array (l : List Str)
  deriving DecidableEq, Repr

/-- build_manifest.rs:12-26 `RawBuildManifest`; `dirBin`: the field `directories.bin` -/
structure Raw where
  name : Option Str
  bin : Option Bin
  dirBin : Option Str
  deriving DecidableEq, Repr

/-- the file system, as a walk of a folder sees it: the paths in it, itself included (the empty path); `none`: the walk
fails, as for folders that are not there -/
abbrev Disk := Loc → Option (List (List Str))

/-- lines 98-100: `WalkDir::new(bin_dir)`: a relative path is looked up in the working directory; the paths that are found
begin with the text that was given -/
def walk (disk : Disk) (cwd : Loc) (d : Str) : Option (List Str) :=
  (disk (RPath.goTo cwd (RPath.components d))).map fun l => l.map fun rel => d ++ rel.flatMap fun c => '/' :: c

/-- lines 80-93: `Bin::Array`; an element without a file name is an error -/
def ofArray : List Str → IMap Str Str → Option (IMap Str Str)
  | [], m => some m
  | b :: r, m => match RPath.fileName b with
    | none => none
    | some n => ofArray r (m.insert n b)

/-- lines 102-108: the command name of a path that was found; those with a path starting with `.` are left out -/
def walkName (p : Str) : Option Str :=
  match RPath.components p with
  | .cur :: _ => none
  | _ => RPath.fileName p

/-- lines 101-108: one path -/
def walkOne (m : IMap Str Str) (p : Str) : IMap Str Str :=
  match walkName p with
  | none => m
  | some n => m.insert n p

/-- lines 94-109: files of `directories.bin` -/
def ofWalk (l : List Str) : IMap Str Str := l.foldl walkOne []

/-- lines 68-110: the declared commands; `cwd`: the working directory of the process -/
def declared (disk : Disk) (cwd : Loc) (r : Raw) : Option (IMap Str Str) :=
  match r.bin, r.name, r.dirBin with
  | some (.hash m), _, _ => some (m.foldl (fun m kv => m.insert kv.1 kv.2) [])
  | some (.str b), some n, _ => some [(n, b)]
  | some (.str _), none, _ => some []
  | some (.array l), _, _ => ofArray l []
  | none, _, some d => (walk disk cwd d).map ofWalk
  | none, _, none => some []

/-- `str::replace(['\\', ':'], "/")` -/
def unify (s : Str) : Str := s.map fun c => if c = '\\' ∨ c = ':' then '/' else c

/-- lines 113-140: the command name -/
def baseName (name : Str) : Option Str :=
  match RPath.fileName name with
  | none => none
  | some b => RPath.fileName (unify b)

/-- lines 142-155: the target, as components: made absolute, then relative to the root; `.` vanishes -/
def target (bin : Str) : List Comp := (RPath.components bin).filter fun c => c ≠ .root ∧ c ≠ .cur

/-- lines 112-158: one command -/
def addBin (m : IMap Str (List Comp)) (kv : Str × Str) : IMap Str (List Comp) :=
  match baseName kv.1 with
  | none => m
  | some b => if target kv.2 = [] then m else m.insert b (target kv.2)

/-- lines 67-163 `normalize`: the `bin` field. `ord` is the iteration order of a hash map. -/
def normalize (ord : IMap Str Str → List (Str × Str)) (disk : Disk) (cwd : Loc) (r : Raw) : Option (IMap Str (List Comp)) :=
  (declared disk cwd r).map fun m => (ord m).foldl addBin []

end Bins
end Oro
