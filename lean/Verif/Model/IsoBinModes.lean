import Verif.Model.Isolated
import Verif.Model.BinModes
/-
`link_bins` of the isolated linker (Model/Isolated.lean) together with what `link_bin` does to the permission bits of the commands' files
(/repo/crates/node-maintainer/src/linkers/isolated.rs:479-491, 561-632, linkers/mod.rs:444-480).
-/

set_option linter.unusedSectionVars false

namespace Oro
namespace Iso
open Hoisted (Tree Pkgs Disk binName setExec without)
variable {P S V I : Type}

/-- isolated.rs:592-625, mod.rs:456-468: what linking one command does to the files: whatever is in the link's place is removed, and the
permission bits of the file that `from` leads to are set.  Simplified: `from` is looked up once, before the old link is removed (it
does not lead through a folder `.bin`). -/
def binFS (v : Env) (g : Graph Str P S) (root : Loc) (t : Tree) (fs : Tar.FS) (s : Nat) (c : Str × Loc) : Tar.FS :=
  match locate v t (nm v g s) (c.1 :: c.2) with
  | some q => if (t q).isNone then fs else setExec (without root (fun p => (nm v g s ++ [binName, c.1]).isPrefixOf p) fs) (root ++ nmWord :: q)
  | none => fs

/-- isolated.rs:592-625: one command -/
def linkBinFS (v : Env) (g : Graph Str P S) (root : Loc) (z : (Tree × List Loc) × Tar.FS) (s : Nat) (c : Str × Loc) : Option ((Tree × List Loc) × Tar.FS) :=
  (linkBin v g z.1 s c).map fun y => (y, binFS v g root z.1.1 z.2 s c)

/-- isolated.rs:479-491 `link_bins` -/
def linkBinsFS (pk : Pkgs P) (v : Env) (g : Graph Str P S) (root : Loc) (pending : List Nat) (z : (Tree × List Loc) × Tar.FS) :
    Option ((Tree × List Loc) × Tar.FS) :=
  (pending.reverse.flatMap (jobs pk g)).foldl (fun z c => z.bind fun z => linkBinFS v g root z c.1 c.2) (some z)

end Iso
end Oro
