import Verif.Model.Entries
/-
What C100 talks about.
-/

set_option linter.unusedSectionVars false

namespace Oro
namespace Tar
variable {σ E : Type}

/-- everything that the server sends -/
def sent : List Ev → Bytes
  | [] => []
  | .data b :: r => b ++ sent r
  | .fail :: r => sent r

/-- The stream ends once: no read returns nothing before the end. -/
def Solid (evs : List Ev) : Prop := ∀ b, Ev.data b ∈ evs → b ≠ []

/-- An unpacker that reads on to the end of the tarball before it says that there are no more entries. -/
def Thorough (u : Unpacker σ E) : Prop :=
  ∀ (digest : Nat → Bytes → Str) (t : Tarball) (n : Nat), (u.run digest n (u.open t)).over = some .done → (u.run digest n (u.open t)).told = true

/-- An unpacker that hands out the contents of the archive, however the bytes arrive. -/
def Faithful (u : Unpacker σ E) (contents : Bytes → List E) : Prop :=
  ∀ (digest : Nat → Bytes → Str) (evs : List Ev) (n : Nat), Solid evs → (u.run digest n (u.open (.newUnchecked evs))).over = some .done →
    (u.run digest n (u.open (.newUnchecked evs))).told = true → (u.run digest n (u.open (.newUnchecked evs))).out = contents (sent evs)

end Tar
end Oro
