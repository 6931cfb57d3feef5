import Verif.Base.Str
/-
Model of /repo/src/lib.rs:761-771 `log_file_name` and of its use at 696-700 and 354-360.
-/

set_option linter.unusedSectionVars false

namespace Oro
namespace LogFile

/-- lib.rs:763, 765: `oro-debug-<time>-<number>.log`; the time has milliseconds -/
def nameOf (stamp : Str) (i : Nat) : Str :=
  ['o', 'r', 'o', '-', 'd', 'e', 'b', 'u', 'g', '-'] ++ stamp ++ ['-'] ++ Nat.toDigits 10 i ++ ['.', 'l', 'o', 'g']

/-- lib.rs:764-769: the first number whose name is free – in the working directory, whose entries are `here`. One of the
first `here.length + 1` names is (`C85_free`), so the loop of the code ends with it. -/
def logName (here : List Str) (stamp : Str) : Str :=
  nameOf stamp (((List.range (here.length + 1)).find? fun i => !here.contains (nameOf stamp i)).getD 0)

/-- a run of the program: its working directory's entries and the time it started -/
structure Run where
  here : List Str
  stamp : Str

/-- lib.rs:696-700, 357-360: the logs folder (names and contents) after a run that writes `lines`: the file is opened for
appending -/
def writeLog (logs : List (Str × List Str)) (r : Run) (lines : List Str) : List (Str × List Str) :=
  let n := logName r.here r.stamp
  if logs.any fun e => e.1 == n then logs.map fun e => if e.1 = n then (e.1, e.2 ++ lines) else e
  else logs ++ [(n, lines)]

end LogFile
end Oro
