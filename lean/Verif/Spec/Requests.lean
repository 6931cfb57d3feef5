import Verif.Model.Requests
import Verif.Spec.Npm
import Verif.Spec.UseCreds
/- Vocabulary for C68 and C69. -/
set_option linter.unusedSectionVars false
namespace Oro
namespace Npm
open Auth

/-- a configuration file with at most one section of scoped registries, which has nothing but a block with one text for
each scope -/
def OneScoped (d : KDoc) : Prop := ∀ o oc, KDoc.get d kOptions = some o → o.children = some oc →
  oc.filter (fun s => s.name = kScoped) = [] ∨
  ∃ l, oc.filter (fun s => s.name = kScoped) = [.mk kScoped [] (some l)] ∧ ∀ k ∈ l, ∃ n v, k = .leaf n v

/-- the file's text for a scope, in the section of scoped registries -/
def Entry (d : KDoc) (n v : Str) : Prop := ∃ l, sectionNodes kScoped d = some l ∧ KNode.leaf n v ∈ l

/-- two spellings of one scope, with and without `@` -/
def SameScope (a b : Str) : Prop := a = b ∨ a = '@' :: b ∨ b = '@' :: a

end Npm
end Oro
