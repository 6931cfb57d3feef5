import Verif.Model.BinModes
import Verif.Spec.LinkBins
import Verif.Spec.Modes
import Verif.Spec.Private
import Verif.Spec.InstallRun
/-
What C99 talks about: the permission bits of commands' files.
-/

set_option linter.unusedSectionVars false

namespace Oro
namespace Hoisted
variable {P S : Type}

/-- What linking the commands can lead to, in any order of events. -/
inductive BReach (pk : Pkgs P) (cap : Nat) (root : Loc) (g : Graph Str P S) (order : List Nat) (t : Tree) (fs : Tar.FS) : BinRun → Prop
  | init : BReach pk cap root g order t fs (binit root order t fs)
  | step {x y : BinRun} (ev : XEvent) : BReach pk cap root g order t fs x → bstep pk cap root g x ev = some (some y) → BReach pk cap root g order t fs y

/-- Every symbolic link below node_modules that leads to a file leads to one that everybody can read and execute. -/
def AllExecutable (root : Loc) (t : Tree) (fs : Tar.FS) : Prop :=
  ∀ p q, t p = some (.link q) → ∀ m, Tar.Bits fs (root ++ nmWord :: q) m → m = 0o755

/-- `p` is where a package of the tree has the file of one of its commands. -/
def IsTarget (pk : Pkgs P) (root : Loc) (g : Graph Str P S) (p : Loc) : Prop :=
  ∃ i nd b, i ≠ 0 ∧ g.nodes[i]? = some nd ∧ b ∈ pk.bins nd.pkg ∧ p = root ++ nmWord :: (targetDir g i ++ b.2)

/-- The file at `p` has no other name and is not in the cache. -/
def Lone (fs : Tar.FS) (p : Loc) : Prop :=
  ∀ i, fs.files p = some i → (∀ q, fs.files q = some i → q = p) ∧ ∀ h, fs.store h ≠ some i

/-- `t` is what is below node_modules: the files and folders of `fs`, and links in the folders for commands. -/
structure Sight (pr : Bytes → Bytes) (root : Loc) (t : Tree) (fs : Tar.FS) : Prop where
  files : ∀ p, seen pr root fs p = match t p with | some (.link _) => none | e => e
  links : ∀ p q, t p = some (.link q) → InBin p

end Hoisted
end Oro
