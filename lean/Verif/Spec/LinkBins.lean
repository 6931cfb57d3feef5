import Verif.Model.LinkBins
/- Vocabulary for concurrent linking of commands. -/

set_option linter.unusedSectionVars false

namespace Oro
namespace Hoisted
variable {P S V I : Type}

/-- What linking the commands can lead to, in any order of events. -/
inductive LReach (pk : Pkgs P) (cap : Nat) (g : Graph Str P S) (order : List Nat) (t : Tree) : LRun → Prop
  | init : LReach pk cap g order t (linit order t)
  | step {x y : LRun} (ev : XEvent) : LReach pk cap g order t x → lstep pk cap g x ev = some (some y) → LReach pk cap g order t y

end Hoisted
end Oro
