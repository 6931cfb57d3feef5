import Verif.Model.Mkdirp
/- Vocabulary for C42. -/
set_option linter.unusedSectionVars false
namespace Oro
namespace Mkdirp

/-- the folder `p` and everything above it exist -/
def Exists (fs : FS) (p : Path) : Prop := ∀ q : Path, q <:+ p → fs q = some .dir

/-- a disk: there is a root folder, and whatever exists is in a folder -/
structure Disk (fs : FS) : Prop where
  root : fs [] = some .dir
  inside : ∀ c par, (fs (c :: par)).isSome → fs par = some .dir

/-- the cache only claims folders that exist -/
def Honest (fs : FS) (cache : List Path) : Prop := ∀ p ∈ cache, Exists fs p

/-- no file is in the way -/
def Clear (fs : FS) (p : Path) : Prop := ∀ q : Path, q <:+ p → fs q ≠ some .file

end Mkdirp
end Oro
