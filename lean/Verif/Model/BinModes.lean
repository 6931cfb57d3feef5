import Verif.Model.LinkBins
import Verif.Model.FileLife
/-
`link_bins` of the hoisted linker (Model/LinkBins.lean) together with what `link_bin` does to the permission bits of the commands' files
(/repo/crates/node-maintainer/src/linkers/mod.rs:444-480).  Windows makes shims instead (Model/Shim.lean).
-/

set_option linter.unusedSectionVars false

namespace Oro
namespace Hoisted
variable {P S V I : Type}

/-- mod.rs:456-468: `from`'s permission bits become 0o755, whatever they were.  The bits belong to the file, not to its name. -/
def setExec (fs : Tar.FS) (p : Loc) : Tar.FS :=
  match fs.files p with
  | some i => { fs with mode := Tar.upd fs.mode i 0o755 }
  | none => fs

/-- below node_modules, and gone there -/
def under (root : Loc) (gone : Loc → Bool) (p : Loc) : Bool :=
  match below (root ++ [nmWord]) p with
  | some r => gone r
  | none => false

/-- hoisted.rs:372, 420-438: `remove_dir_all`, `remove_file` below node_modules -/
def without (root : Loc) (gone : Loc → Bool) (fs : Tar.FS) : Tar.FS :=
  { fs with
    files := fun p => if under root gone p then none else fs.files p
    dirs := fun p => !under root gone p && fs.dirs p }

/-- progress of `link_bins`, and the files -/
structure BinRun where
  links : LRun
  fs : Tar.FS

/-- hoisted.rs:363-375: the folders `.bin` are removed -/
def binit (root : Loc) (order : List Nat) (t : Tree) (fs : Tar.FS) : BinRun := ⟨linit order t, without root cleared fs⟩

/-- mod.rs:495, 502: `create_dir`, `create_dir_all` -/
def withDirs (fs : Tar.FS) (new : Loc → Bool) : Tar.FS := { fs with dirs := fun p => new p || fs.dirs p }

/-- hoisted.rs:377-452 with mod.rs:444-514: what a step of linking does to the files and folders.  Setting the permission bits and making
the symbolic link (mod.rs:459-478) are one step here; the links are in the tree only. -/
def binFiles (root : Loc) (g : Graph Str P S) (x : BinRun) : XEvent → Tar.FS
  | .start => x.fs
  | .work k =>
    match x.links.tasks[k]? with
    | some ⟨i, b :: _, .link⟩ => setExec x.fs (root ++ nmWord :: (targetDir g i ++ b.2))
    | some ⟨i, b :: _, .remove⟩ => without root (fun q => (binDir (targetDir g i) ++ [b.1]).isPrefixOf q) x.fs
    | some ⟨i, _ :: _, .create⟩ => withDirs x.fs fun p => decide (p = root ++ nmWord :: binDir (targetDir g i))
    | some ⟨i, _ :: _, .createAll⟩ => withDirs x.fs fun p => p.isPrefixOf (root ++ nmWord :: binDir (targetDir g i))
    | _ => x.fs

/-- one step; as `lstep`: outer `none`: it cannot happen now, inner `none`: `link_bins` fails -/
def bstep (pk : Pkgs P) (cap : Nat) (root : Loc) (g : Graph Str P S) (x : BinRun) (ev : XEvent) : Option (Option BinRun) :=
  (lstep pk cap g x.links ev).map fun r => r.map fun y => ⟨y, binFiles root g x ev⟩

end Hoisted
end Oro
