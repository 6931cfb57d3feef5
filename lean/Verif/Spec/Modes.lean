import Verif.Spec.Tarball
/-
What C89 talks about: the permission bits of installed files.
-/

set_option linter.unusedSectionVars false

namespace Oro
namespace Tar

/-- There is a file at `p`, with these permission bits. -/
def Bits (fs : FS) (p : Loc) (m : Nat) : Prop := ∃ i, fs.files p = some i ∧ fs.mode i = m

/-- Where the archive's manifest says that there is a command. -/
def IsCommand (env : Env) (dir : Loc) (es : List Entry) (p : Loc) : Prop :=
  ∃ b ∈ commands env es, RPath.goTo dir (RPath.components b) = p

instance (env : Env) (dir : Loc) (es : List Entry) (p : Loc) : Decidable (IsCommand env dir es p) :=
  inferInstanceAs (Decidable (∃ b ∈ commands env es, RPath.goTo dir (RPath.components b) = p))

/-- The permission bits that a file of the archive is to have: those in the archive; its owner can read and write it; and
everybody can execute it if it is a command. -/
def wanted (env : Env) (dir : Loc) (es : List Entry) (e : Entry) : Nat :=
  if IsCommand env dir es (place dir e) then e.mode ||| 0o600 ||| 0o111 else e.mode ||| 0o600

/-- All files of the archive are placed at different locations. -/
def Apart (dir : Loc) (es : List Entry) : Prop :=
  (es.filter fun e => e.regular).Pairwise fun a b => place dir a ≠ place dir b

/-- New files get the permission bits 0o644, whether the cache makes them, or they are clones or copies of the cache's. -/
structure Ordinary (env : Env) : Prop where
  store : env.storeMode = 0o644
  clone : ∀ m, env.cloneMode m = 0o644
  copy : ∀ m, env.copyMode m none = 0o644

/-- The target of a command is written without detours: names with one `/` between them. -/
def Spelled (b : Str) : Prop := (∀ c ∈ RPath.components b, ∃ s, c = .normal s) ∧ pathText (RPath.components b) = b

end Tar
end Oro
