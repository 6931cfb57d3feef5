import Verif.Spec.Relock
import Verif.Spec.Lockfile
/- Vocabulary for C81: two resolved trees that are the same on disk. -/

set_option linter.unusedSectionVars false

namespace Oro
namespace Again
variable {N P S : Type} [DecidableEq N]

/-- A requirement of the package at location `π` is linked to the package at location `ρ`. -/
def LinkedTo (g : Graph N P S) (π ρ : List N) : Prop := ∃ e ∈ g.edges, LocatedAt g e.src π ∧ LocatedAt g e.dst ρ

/-- The two trees have the same packages at the same places, linked in the same way. -/
structure Alike (g g' : Graph N P S) : Prop where
  packages : ∀ π p, Installed g π p ↔ Installed g' π p
  links : ∀ π ρ, LinkedTo g π ρ ↔ LinkedTo g' π ρ

/-- Everything about the tree can be read back from the lockfile: names (C60), requirements, and which package an entry means (C22). -/
structure ReadsBack {P S V I : Type} (env : Env Str P S) (v : LockView P S V I) (toPackage : LNode V I → Option (Option P)) (g : Graph Str P S) : Prop where
  names : ∀ i nd, i ≠ 0 → g.nodes[i]? = some nd → ValidName nd.name
  specs : ∀ i n spec ty, i ≠ 0 → Declares g i n spec ty → env.parse n (v.reqStr spec) = some spec
  packages : ∀ (i : Nat) (nd : Node Str P S) (n : LNode V I), i ≠ 0 → g.nodes[i]? = some nd → n.name = nd.name →
    Records n (v.resolved nd.pkg) → toPackage n = some (some nd.pkg)

end Again
end Oro
