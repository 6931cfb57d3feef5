import Verif.Model.Lockfile
import Verif.Model.RustPath
/-
Model of /repo/crates/node-maintainer/src/graph.rs:231-278 (`node_at_path`, `package_at_path`).
Paths are lists of segments (`Path::iter`).
-/

set_option linter.unusedSectionVars false

namespace Oro
variable {P S : Type}

/-- graph.rs:238-266, the loop of `node_at_path`, from package `c` on.  `current` is always `Some`. -/
def atStep (g : Graph Str P S) : Nat → Bool → Option Str → List Str → Nat
  | c, _, _, [] => c
  | c, inNm, scope, seg :: rest =>
    if (seg = nmWord ∧ scope = none) ∨ seg = ['/'] ∨ seg = ['\\'] then atStep g c true scope rest
    else if inNm = false then c
    else if seg.head? = some '@' then atStep g c inNm (some seg) rest
    else match scope with
      | some sc =>
        match g.child? c (sc ++ '/' :: seg) with
        | some ch => atStep g ch false none rest
        | none => atStep g c false none rest
      | none =>
        match g.child? c seg with
        | some ch => atStep g ch false none rest
        | none => c

/-- graph.rs:231-274 `node_at_path` -/
def nodeAtPath (g : Graph Str P S) (path : List Str) : Option Nat :=
  if atStep g 0 true none path = 0 then none else some (atStep g 0 true none path)

end Oro
