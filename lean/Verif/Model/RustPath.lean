import Verif.Model.PackageSpec
/-
Model of the parts of `std::path` (Unix) that orogene uses on untrusted names: splitting a path into components,
dropping the first one, and the location a joined path denotes.
-/

set_option linter.unusedSectionVars false

namespace Oro

/-- `std::path::Component` on Unix (no prefixes) -/
inductive Comp where
  | root | cur | parent
  | normal (s : Str)
  deriving DecidableEq, Repr

/-- `Component::as_os_str` -/
def Comp.text : Comp → Str
  | .root => ['/']
  | .cur => ['.']
  | .parent => ['.', '.']
  | .normal s => s

/-- A location in the file system: the folder names from the root. -/
abbrev Loc := List Str

namespace RPath

/-- the component that a piece of text between two slashes stands for; empty pieces and `.` vanish -/
def piece : Str → Option Comp
  | [] => none
  | ['.'] => none
  | ['.', '.'] => some .parent
  | s => some (.normal s)

/-- `Path::components`: a leading `/` is a component, a leading `.` is one too, and elsewhere empty pieces and `.`
are dropped. -/
def components (p : Str) : List Comp :=
  match p with
  | '/' :: s => .root :: (PSpec.splitChar '/' s).filterMap piece
  | _ => match PSpec.splitChar '/' p with
    | ['.'] :: rest => .cur :: rest.filterMap piece
    | parts => parts.filterMap piece

/-- `PathBuf::join` followed by the operating system's name resolution, without symbolic links: `..` leaves the
current folder, an absolute path starts again at the root. -/
def goTo (l : Loc) : List Comp → Loc
  | [] => l
  | .root :: cs => goTo [] cs
  | .cur :: cs => goTo l cs
  | .parent :: cs => goTo l.dropLast cs
  | .normal s :: cs => goTo (l ++ [s]) cs

/-- `Path::file_name`: the last component if it is a normal one -/
def fileName (p : Str) : Option Str :=
  match (components p).getLast? with
  | some (.normal s) => some s
  | _ => none

end RPath
end Oro
