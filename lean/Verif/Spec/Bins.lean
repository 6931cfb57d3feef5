import Verif.Model.Bins
/- Vocabulary for C72: the commands a package declares. -/
set_option linter.unusedSectionVars false
namespace Oro
namespace Bins

/-- The package in the folder `pkg` declares a command (its name, and the path of its file in the package). -/
inductive Declares (disk : Disk) (pkg : Loc) (r : Raw) : Str → Str → Prop
  /-- `"bin": {"name": "path"}` -/
  | hash {m : IMap Str Str} {n p : Str} : r.bin = some (.hash m) → (n, p) ∈ m → Declares disk pkg r n p
  /-- `"bin": "path"`: the name is the package's -/
  | str {n p : Str} : r.bin = some (.str p) → r.name = some n → Declares disk pkg r n p
  /-- `"bin": ["path"]`: the name is the file's -/
  | array {l : List Str} {n p : Str} : r.bin = some (.array l) → p ∈ l → RPath.fileName p = some n → Declares disk pkg r n p
  /-- `"directories": {"bin": "folder"}`: all files in this folder of the package -/
  | folder {d n : Str} {l : List (List Str)} {rel : List Str} : r.bin = none → r.dirBin = some d →
      disk (RPath.goTo pkg (RPath.components d)) = some l → rel ∈ l → rel.getLast? = some n →
      Declares disk pkg r n (d ++ rel.flatMap fun c => '/' :: c)

end Bins
end Oro
