import Verif.Spec.Isolated
import Verif.Spec.InstallRun
import Verif.Model.StoreRun
/-
What C93 talks about.
-/

set_option linter.unusedSectionVars false

namespace Oro
namespace Iso
open Hoisted (Bytes Tree Pkgs XOpts Packed Obtainable EmptyModules)
variable {P S : Type}

/-- What one sees below the project's node_modules: symbolic links, and files and folders.  Of the contents of files one sees what
`pr` tells of them. -/
def seen (pr : Bytes → Bytes) (root : Loc) (fs : Tar.FS) (links : Loc → Option Loc) : Tree := fun p =>
  match links p with
  | some t => some (.link t)
  | none => Hoisted.seen pr root fs p

/-- The archive has a manifest, from which `build` reads `b`. -/
def Built (build : Bytes → Option (Bool × Bool)) (es : List Tar.Entry) (b : Bool × Bool) : Prop :=
  ∃ f ∈ es, f.regular = true ∧ (RPath.components f.header).tail = [.normal Tar.kPackageJson] ∧ build f.content = some b

/-- What a first installation by the isolated linker starts from. -/
structure Start (env : Tar.Env) (build : Bytes → Option (Bool × Bool)) (pr : Bytes → Bytes) (pk : Pkgs P) (v : Env) (g : Graph Str P S) (o : XOpts)
    (fetch : P → Option Tar.Integrity × Option (List Tar.Ev)) (tar : P → Bytes) (fs : Tar.FS) : Prop where
  tree : Installable pk v g
  bare : EmptyModules o.root fs
  packages : ∀ i nd j, i ≠ 0 → g.nodes[i]? = some nd → jobsFor o v g fetch i = some j → Obtainable env j (tar nd.pkg) fs
  packed : ∀ (i : Nat) (nd : Node Str P S), i ≠ 0 → g.nodes[i]? = some nd → Packed pr (pk.content nd.pkg) (env.untar (tar nd.pkg)).1
  built : ∀ (i : Nat) (nd : Node Str P S), i ≠ 0 → g.nodes[i]? = some nd →
    Built build (env.untar (tar nd.pkg)).1 (pk.scripts nd.pkg, !(pk.bins nd.pkg).isEmpty)
  /-- what is read from a file does not depend on more than its content hash -/
  sight : ∀ c c', env.xxh c = env.xxh c' → pr c = pr c'
  reading : ∀ c c', env.xxh c = env.xxh c' → build c = build c'

end Iso
end Oro
