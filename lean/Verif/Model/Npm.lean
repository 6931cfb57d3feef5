import Verif.Model.PackageSpec
import Verif.Model.Auth
/-
Model of /repo/crates/nassun/src/fetch/npm.rs:43-152 (choosing a registry, memoised packuments),
/repo/crates/nassun/src/client.rs:56-70 (registering registries) and
/repo/crates/oro-client/src/api/packument.rs:14, 29 (the address of a packument).

The answer of a registry is arbitrary (and may differ from request to request); lookups run at the same time, with any
interleaving of their looks at the memo, their requests and their insertions.
-/

set_option linter.unusedSectionVars false

namespace Oro
namespace Npm
open PSpec Auth

variable {V R U : Type}

/-- client.rs:56-70: the calls that name registries -/
inductive RegOp where
  | default (u : Url)
  | forScope (scope : Str) (u : Url)

/-- client.rs:66 `strip_prefix('@')` -/
def stripAt : Str → Str
  | '@' :: s => s
  | s => s

/-- client.rs:56-70 -/
def addOp (m : IMap (Option Str) Url) : RegOp → IMap (Option Str) Url
  | .default u => m.insert none u
  | .forScope s u => m.insert (some (stripAt s)) u

/-- the registries of a client -/
def registries (ops : List RegOp) : IMap (Option Str) Url := ops.foldl addOp []

/-- npm.rs:48: https://registry.npmjs.org/ -/
def npmjs : Url := ⟨['h', 't', 't', 'p', 's'],
  some ['r', 'e', 'g', 'i', 's', 't', 'r', 'y', '.', 'n', 'p', 'm', 'j', 's', '.', 'o', 'r', 'g'], none, ['/'], []⟩

/-- npm.rs:43-49 `pick_registry` -/
def pickRegistry (m : IMap (Option Str) Url) (scope : Option Str) : Url :=
  ((m.get? scope).or (m.get? none)).getD npmjs

/-- everything up to the last slash -/
def upToSlash (path : Str) : Str := (path.reverse.dropWhile (· ≠ '/')).reverse

/-- packument.rs:14, 29: `registry.join(name)`, for names of the shape the parser returns (`Url::join` replaces what comes
after the last slash of the path, and drops query and fragment). Names `.` and `..` are not considered. -/
def packumentUrl (reg : Url) (name : Str) : Url := { reg with path := upToSlash reg.path ++ name, rest := [] }

/-! ### lookups -/

/-- where a lookup is -/
inductive Phase (A : Type) where
  /-- npm.rs:107-111: about to look into the memo -/
  | start
  /-- npm.rs:112-113: about to ask the registry -/
  | request
  /-- npm.rs:114-117: answered, about to put the answer into the memo -/
  | answered (a : A)
  | done (a : A)
  | failed

/-- a lookup of an npm specifier -/
structure Lookup (A : Type) where
  scope : Option Str
  name : Str
  phase : Phase A

/-- a fetcher with its memo, its lookups, and the answers it got from the network so far -/
structure St (A : Type) where
  memo : IMap Str A
  lookups : List (Lookup A)
  log : List (Url × A)

/-- npm.rs:94-122, 124-152: one more thing happens. `regs`: the registries; `caching`: `cache_packuments` -/
inductive Step {A : Type} (regs : IMap (Option Str) Url) (caching : Bool) : St A → St A → Prop
  /-- somebody asks for a packument -/
  | ask (s : St A) (scope : Option Str) (name : Str) : Step regs caching s { s with lookups := s.lookups ++ [⟨scope, name, .start⟩] }
  /-- the memo has an answer -/
  | hit (s : St A) (i : Nat) (l : Lookup A) (a : A) (h : s.lookups[i]? = some l) (hp : l.phase = .start) (hc : caching = true)
      (hm : s.memo.get? l.name = some a) : Step regs caching s { s with lookups := s.lookups.set i { l with phase := .done a } }
  /-- it does not, or is not used -/
  | miss (s : St A) (i : Nat) (l : Lookup A) (h : s.lookups[i]? = some l) (hp : l.phase = .start)
      (hm : caching = false ∨ s.memo.get? l.name = none) : Step regs caching s { s with lookups := s.lookups.set i { l with phase := .request } }
  /-- the registry answers -/
  | answer (s : St A) (i : Nat) (l : Lookup A) (a : A) (h : s.lookups[i]? = some l) (hp : l.phase = .request) :
      Step regs caching s { s with lookups := s.lookups.set i { l with phase := .answered a },
                                   log := (packumentUrl (pickRegistry regs l.scope) l.name, a) :: s.log }
  /-- the request fails -/
  | fail (s : St A) (i : Nat) (l : Lookup A) (h : s.lookups[i]? = some l) (hp : l.phase = .request) :
      Step regs caching s { s with lookups := s.lookups.set i { l with phase := .failed } }
  /-- the answer is returned, and put into the memo -/
  | finish (s : St A) (i : Nat) (l : Lookup A) (a : A) (h : s.lookups[i]? = some l) (hp : l.phase = .answered a) :
      Step regs caching s { s with lookups := s.lookups.set i { l with phase := .done a },
                                   memo := if caching then s.memo.insert l.name a else s.memo }

/-- any number of steps -/
inductive Steps {A : Type} (regs : IMap (Option Str) Url) (caching : Bool) : St A → St A → Prop
  | refl (s : St A) : Steps regs caching s s
  | tail {s t u : St A} : Steps regs caching s t → Step regs caching t u → Steps regs caching s u

/-- npm.rs:98-105 `corgi_packument`: what is looked up for a specifier; `none`: a crash -/
def corgiTarget (spec : PackageSpec V R U) : Option (Option Str × Str) :=
  match spec.target with
  | .npm scope name _ => some (scope, name)
  | _ => none

/-- npm.rs:126-136 `packument` (follows only one alias) -/
def fullTarget : PackageSpec V R U → Option (Option Str × Str)
  | .npm scope name _ => some (scope, name)
  | .alias _ (.npm scope name _) => some (scope, name)
  | _ => none

end Npm
end Oro
