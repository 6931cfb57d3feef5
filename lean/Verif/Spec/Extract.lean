import Verif.Model.Extract
/- Vocabulary for concurrent extraction. -/

set_option linter.unusedSectionVars false

namespace Oro
namespace Hoisted
variable {P S V I : Type}

/-- Writing these entries, in this order, makes this content: each is part of it, lies in folders of it, and no file is written
twice; and everything in the content is written, or is a folder above something written. -/
structure WrittenAs (content : Loc → Option Entry) (ws : List (Loc × Entry)) : Prop where
  part : ∀ w ∈ ws, content w.1 = some w.2 ∧ ∀ q, q <+: w.1 → q ≠ w.1 → content q = some .dir
  once : ws.Pairwise fun a b => a.1 = b.1 → a.2 = .dir
  all : ∀ r e, content r = some e → (r, e) ∈ ws ∨ ∃ w ∈ ws, r <+: w.1 ∧ r ≠ w.1

/-- What concurrent extraction can lead to, in any order of events. -/
inductive XReach (pk : Pkgs P) (ws : P → List (Loc × Entry)) (cap : Nat) (g : Graph Str P S) (t : Tree) : Run → Prop
  | init : XReach pk ws cap g t (xinit t)
  | step {x y : Run} (ev : XEvent) : XReach pk ws cap g t x → xstep pk ws cap g x ev = some (some y) → XReach pk ws cap g t y

end Hoisted
end Oro
