import Verif.Proofs.Forms
import Verif.Props.Specs
/- Property C61: every written form of a specifier is read as what it says. -/

set_option linter.unusedSectionVars false

namespace Oro
open PSpec
variable {V R U : Type}

/-- **C61.** Whatever follows the grammar in `Spec/Forms.lean` is read as exactly that: names with and without scope,
versions, ranges, tags, `npm:`, paths, `file:`, git repositories in all their notations, and aliases of any of these.
(`char::is_alphabetic('/')` is false.) -/
theorem C61_forms (E : SpecEnv V R U) (hE : E.alphabetic '/' = false) (s : Str) (a : PackageSpec V R U)
    (h : Written E s a) : parse E s = .ok a := by
  unfold parse
  rw [written_text hE h]

/-- The written forms do not overlap: one text, one meaning. -/
theorem C61_unambiguous (E : SpecEnv V R U) (hE : E.alphabetic '/' = false) (s : Str) (a b : PackageSpec V R U)
    (ha : Written E s a) (hb : Written E s b) : a = b := by
  have h1 := C61_forms E hE s a ha
  rw [C61_forms E hE s b hb] at h1
  cases h1
  rfl

section
open ExS
theorem safe_a (c : Char) (h : c.isAlphanum = true := by decide) : UrlSafe [c] := fun x hx => by
  simp at hx; subst hx; exact Or.inl h

/-- `@s/n@npm:x`, an alias with a scope of a registry package -/
example : Written ExS.env ['@','s','/','n','@','n','p','m',':','x'] (.alias ['@','s','/','n'] (.npm none ['x'] none)) :=
  .alias (m := ['@','s','/','n']) (.inScope (sc := ['s']) (n := ['n']) (by simp) (safe_a _) (by simp) (safe_a _))
    (.registry (.bare (.plain (by simp) (safe_a _) (by simp))))
/-- `o/r#m`, a GitHub repository -/
example : Written ExS.env ['o','/','r','#','m'] (.git (.hosted ['o'] ['r'] .github (some ['m']) none none)) :=
  .git (.short (o := ['o']) (r := ['r']) (c := ['#','m']) (by simp) (safe_a _) (by simp) (by decide) (by decide) (by decide)
    (.commit (safe_a _)))
/-- `gitlab:o/r` -/
example : Written ExS.env ['g','i','t','l','a','b',':','o','/','r'] (.git (.hosted ['o'] ['r'] .gitlab none none none)) :=
  .git (.host (h := .gitlab) (o := ['o']) (r := ['r']) (c := []) (by simp) (safe_a _) (by decide) .nothing)
end

end Oro
