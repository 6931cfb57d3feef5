import Verif.Spec.InstallRun
/-
What C97 talks about.
-/

set_option linter.unusedSectionVars false

namespace Oro
namespace Tar

/-- The package with this integrity is in the cache, complete and undamaged. -/
def InCache (env : Env) (i : Integrity) (fs : FS) : Prop := ∃ idx, fs.index i = some (.good idx) ∧ Stocked env fs idx.files

/-- What was in the cache of `a`, complete and undamaged, still is in that of `b`. -/
structure CacheKept (env : Env) (a b : FS) : Prop where
  index : ∀ i idx, a.index i = some (.good idx) → b.index i = some (.good idx)
  contents : ∀ h k, a.store h = some k → env.xxh (a.content k) = h → ∃ k', b.store h = some k' ∧ env.xxh (b.content k') = h

end Tar

namespace Hoisted
variable {P : Type}

/-- The network does not answer. -/
def offline (fetch : P → Option Tar.Integrity × Option (List Tar.Ev)) : P → Option Tar.Integrity × Option (List Tar.Ev) :=
  fun p => ((fetch p).1, none)

end Hoisted
end Oro
