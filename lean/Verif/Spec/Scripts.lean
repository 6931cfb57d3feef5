import Verif.Model.Scripts
/-
Vocabulary for C29–C31.
-/
namespace Oro
namespace Scripts

variable {N P S : Type}

/-- `a` depends, directly or through others, on `b`. -/
inductive DependsOn (g : Graph N P S) : Nat → Nat → Prop where
  | direct {a b} : (∃ e ∈ g.edges, e.src = a ∧ e.dst = b) → DependsOn g a b
  | trans {a b c} : DependsOn g a b → DependsOn g b c → DependsOn g a c

/-- A run of the script phase of `pending` packages, from its beginning to state `s` in `n` steps. -/
def Run (g : Graph N P S) (pending : List Nat) (limit : Nat) (oks : Nat → Bool) (n : Nat) (s : St) : Prop :=
  Steps g pending limit oks n (init g pending) s

/-- No step is possible. -/
def Stuck (g : Graph N P S) (pending : List Nat) (limit : Nat) (oks : Nat → Bool) (s : St) : Prop :=
  ∀ t, ¬ Step g pending limit oks s t

/-- No two different pending packages depend on each other. -/
def NoCycle (g : Graph N P S) (pending : List Nat) : Prop :=
  ∀ i ∈ pending, ∀ j ∈ pending, i ≠ j → DependsOn g i j → ¬ DependsOn g j i

/-- Every package that depends on `i` lists it as optional. -/
def OnlyOptional (g : Graph N P S) (i : Nat) : Prop := ∀ e ∈ g.edges, e.dst = i → e.ty = DepType.opt

/-- The script of the package for the event is run and fails. -/
def ScriptFails (event : Str) (o : Outcome) : Prop :=
  ∃ ss, o.scripts = some ss ∧ event ∈ ss ∧ ¬ (o.spawn = true ∧ o.output = true ∧ o.exit = true)

/-- The package's own package.json cannot be read. -/
def Unreadable (o : Outcome) : Prop := o.scripts = none

end Scripts
end Oro
