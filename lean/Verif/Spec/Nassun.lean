import Verif.Model.Nassun
import Verif.Spec.PackageSpec
/- Specification vocabulary for version selection. -/

set_option linter.unusedSectionVars false

namespace Oro
namespace Nassun
open PSpec
variable {V R U I : Type} [DecidableEq V]

/-- versions are totally ordered -/
structure TotalLe (le : V → V → Bool) : Prop where
  total : ∀ a b, le a b = true ∨ le b a = true
  trans : ∀ a b c, le a b = true → le b c = true → le a c = true
  antisymm : ∀ a b, le a b = true → le b a = true → a = b

/-- the package has published version `v` -/
def Published (p : Packument V) (v : V) : Prop := ∃ e, p.versions.get? v = some e

/-- `v` is the version a registry request asks for. -/
inductive Chooses (w : World V R I) (p : Packument V) (defaultTag : Str) : Option (VersionSpec V R) → V → Prop
  /-- an exact version: that version -/
  | exact {v : V} : Published p v → Chooses w p defaultTag (some (.version v)) v
  /-- a tag: what the tag points at -/
  | tagged {t : Str} {v : V} : p.tags.get? t = some v → Published p v → Chooses w p defaultTag (some (.tag t)) v
  /-- nothing: what the default tag points at -/
  | bare {v : V} : p.tags.get? defaultTag = some v → Published p v → Chooses w p defaultTag none v
  /-- a range containing the default tag's version: that version -/
  | preferred {r : R} {v : V} : p.tags.get? defaultTag = some v → Published p v → w.sat r v = true →
      Chooses w p defaultTag (some (.range r)) v
  /-- otherwise the highest published version in the range -/
  | highest {r : R} {v : V} : Published p v → w.sat r v = true →
      (∀ d, p.tags.get? defaultTag = some d → Published p d → w.sat r d = false) →
      (∀ u, Published p u → w.sat r u = true → w.le u v = true) → Chooses w p defaultTag (some (.range r)) v
  /-- for the range `*` only: if nothing is in the range (only pre-releases are published), the default tag's version -/
  | star {r : R} {v : V} : w.isStar r = true → (∀ u, Published p u → w.sat r u = false) →
      p.tags.get? defaultTag = some v → Published p v → Chooses w p defaultTag (some (.range r)) v

/-- The checksum a version is recorded with: the parsed `integrity` if it has one, else the `shasum` as a SHA-1
checksum, else none.  Text that is no checksum has no meaning. -/
inductive Checksum (w : World V R I) (e : VersionMeta V) : Option I → Prop
  | listed {s : Str} {x : I} : e.integrity = some s → w.parseI s = some x → Checksum w e (some x)
  | sha1 {s : Str} {x : I} : e.integrity = none → e.shasum = some s → w.parseI (['s','h','a','1','-'] ++ s) = some x →
      Checksum w e (some x)
  | none : e.integrity = none → e.shasum = none → Checksum w e none

/-- The registry answers consistently: the metadata listed under a version says it is that version. -/
def Consistent (p : Packument V) : Prop := ∀ v e, p.versions.get? v = some e → e.version = some v

/-- version `v` meets the request, as the English property reads it -/
def Meets (w : World V R I) (p : Packument V) (defaultTag : Str) : Option (VersionSpec V R) → V → Prop
  | some (.version x), v => v = x
  | some (.range r), v => w.sat r v = true
  | some (.tag t), v => p.tags.get? t = some v
  | none, v => p.tags.get? defaultTag = some v

end Nassun
end Oro
