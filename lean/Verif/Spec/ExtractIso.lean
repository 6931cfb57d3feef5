import Verif.Model.ExtractIso
import Verif.Spec.Extract
/- Vocabulary for concurrent extraction by the isolated linker (`Hoisted.WrittenAs` is in `Spec/Extract.lean`). -/

set_option linter.unusedSectionVars false

namespace Oro
namespace Iso
open Hoisted (Entry Tree Pkgs XEvent)
variable {P S V I : Type}

/-- What concurrent extraction can lead to, in any order of events. -/
inductive IReach (pk : Pkgs P) (ws : P → List (Loc × Entry)) (v : Env) (cap : Nat) (g : Graph Str P S) (t : Tree) : IRun → Prop
  | init : IReach pk ws v cap g t (iinit t)
  | step {x y : IRun} (ev : XEvent) : IReach pk ws v cap g t x → istep pk ws v cap g x ev = some (some y) → IReach pk ws v cap g t y

/-- a run of events -/
def irun (pk : Pkgs P) (ws : P → List (Loc × Entry)) (v : Env) (cap : Nat) (g : Graph Str P S) : IRun → List XEvent → Option (Option IRun)
  | x, [] => some (some x)
  | x, ev :: evs => match istep pk ws v cap g x ev with
    | none => none
    | some none => some none
    | some (some y) => irun pk ws v cap g y evs

end Iso
end Oro
