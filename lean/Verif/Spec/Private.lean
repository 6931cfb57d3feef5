import Verif.Model.TarRun
/-
What C94 talks about.
-/

set_option linter.unusedSectionVars false

namespace Oro
namespace Tar

/-- what is in the file at a location -/
def FS.read (fs : FS) (p : Loc) : Option Bytes := (fs.files p).map fs.content

/-- what the cache holds under a hash -/
def FS.cached (fs : FS) (h : Str) : Option Bytes := (fs.store h).map fs.content

/-- somebody – an install script, say – changes the file at a location in place -/
def FS.edit (fs : FS) (p : Loc) (c : Bytes) : FS := match fs.files p with
  | some i => { fs with content := upd fs.content i c }
  | none => fs

/-- Whatever is written into the file at `p` changes no other file and nothing in the cache. -/
def Private (fs : FS) (p : Loc) : Prop :=
  ∀ c, (∀ q, q ≠ p → (fs.edit p c).read q = fs.read q) ∧ ∀ h, (fs.edit p c).cached h = fs.cached h

end Tar
end Oro
