import Verif.Model.Whole
/- Vocabulary for C81 and C82 at the level of commands. -/

set_option linter.unusedSectionVars false

namespace Oro
namespace Whole
open Cli

variable {P S V I J : Type} [DecidableEq S] [DecidableEq V] [DecidableEq I]

/-- The schedule `sch` is that of a whole run of the resolver: it ended by itself, with an error or with nothing left to do. -/
def Ends (k : Setting P S V I) (sch : List (REvent S)) (m : Manifest Str) (file : Option KDoc) : Prop :=
  ∀ root, Node.new k.env.parse [] (k.rootPkg m) m true = some root →
    ∃ r, rrun k.env ((lockOf k.c file).map (·.tree k.toPackage)) (rinit root) sch = some r ∧ ∀ s, r = .ok s → s.done = true

/-- No scripts are run, or those that are change nothing in node_modules and succeed. -/
def Quiet (o : Opts) (k : Setting P S V I) : Prop := o.scripts = false ∨ ∀ l e t, k.script l e t = (t, true)

/-- The same machine, with other answers from the registry and another number of requests at a time. -/
def Setting.later (k : Setting P S V I) (fetch : S → Option (P × Manifest Str)) (concurrency : Nat) : Setting P S V I :=
  { k with env := { k.env with fetch := fetch, concurrency := concurrency } }

/-- node_modules is missing, or it is a folder without a readable meta file -/
def FreshProject (w : World Nm (Option KDoc) J) : Prop := w.metaFile ≠ .good ∧ ((∀ p, w.nm.tree p = none) ∨ w.nm.tree [] = some .dir)

/-- node_modules is not there -/
def Gone (w : World Nm (Option KDoc) J) : Prop := w.metaFile = .absent ∧ ∀ p, w.nm.tree p = none

/-- The two projects differ only in node_modules. -/
def SameButModules (w w' : World Nm (Option KDoc) J) : Prop := w.lock = w'.lock ∧ w.pkg = w'.pkg ∧ w.ran = w'.ran

end Whole
end Oro
