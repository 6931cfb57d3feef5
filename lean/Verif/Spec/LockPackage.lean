import Verif.Model.LockPackage
import Verif.Spec.Lockfile
import Verif.Spec.Forms
/- Specification vocabulary for reading a package back from its lockfile entry. -/

set_option linter.unusedSectionVars false

namespace Oro
open PSpec Nassun
variable {V R U I : Type}

/-- the name a resolution carries -/
def resolutionName : Resolution V R U I → Str
  | .npm n _ _ _ => n
  | .dir n _ => n
  | .git n _ => n

/-- the specifier names the commit `c` -/
inductive Pinned : GitInfo R U → Str → Prop
  | hosted {o r c : Str} {h : GitHost} {v : Option R} {q : Option Str} : Pinned (.hosted o r h (some c) v q) c
  | url {u : U} {c : Str} {v : Option R} : Pinned (.url u (some c) v) c
  | ssh {s c : Str} {v : Option R} : Pinned (.ssh s (some c) v) c

/-- Where a package comes from is written in a way that can be read again: a registry package by a plain version and an
http(s) address, a directory by an absolute (or dotted) path, and a git repository by a specifier that prints to itself
and names a commit. -/
inductive Readable (E : SpecEnv V R U) : Resolution V R U I → Prop
  | npm {name t : Str} {v : V} {u : U} {i : Option I} : ReqText E (E.showV v) (.version v) →
      ['h','t','t','p'] <+: t → E.parseU t = some u → E.showU u = t → Readable E (.npm name v t i)
  | dir {name p : Str} : PathText p → Readable E (.dir name p)
  | git {name s c : Str} {i : GitInfo R U} : parse E s = .ok (.git i) → GitPrints E i → Pinned i c →
      Readable E (.git name i)

end Oro
