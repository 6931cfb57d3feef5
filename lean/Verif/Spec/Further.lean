import Verif.Spec.InstallRun
/-
What C95 talks about: installations into a node_modules in which there are packages already.
-/

set_option linter.unusedSectionVars false

namespace Oro

/-- A file system as they are: what is in a folder's folder is in a folder, files are in folders, and nothing is both. -/
structure Tar.Proper (fs : Tar.FS) : Prop where
  closed : ∀ d, fs.dirs d = true → ∀ q, q <+: d → fs.dirs q = true
  housed : ∀ p, fs.files p ≠ none → fs.dirs p.dropLast = true
  apart : ∀ p, fs.files p ≠ none → fs.dirs p = false

namespace Hoisted
variable {P S : Type}

/-- The extraction of the package was begun. -/
def XPhase.begun : XPhase → Bool
  | .extracting | .extracted _ | .failed => true
  | _ => false

/-- What a further installation starts from: everything below node_modules (commands apart) belongs to the tree, and each package of
the tree is there completely or not at all; those that are not can be had. -/
structure Further (env : Tar.Env) (build : Bytes → Option Bool) (pr : Bytes → Bytes) (pk : Pkgs P) (g : Graph Str P S) (o : XOpts)
    (fetch : P → Option Tar.Integrity × Option (List Tar.Ev)) (tar : P → Bytes) (fs : Tar.FS) : Prop where
  tree : Installable pk g
  proper : Tar.Proper fs
  modules : fs.dirs (o.root ++ [nmWord]) = true
  expected : ∀ p, ¬ InBin p → ∀ e, seen pr o.root fs p = some e → Expected pk g p e
  whole : ∀ i nd, i ≠ 0 → g.nodes[i]? = some nd → seen pr o.root fs (targetDir g i) ≠ none →
    ∀ r e, ¬ InBin (targetDir g i ++ r) → pk.content nd.pkg r = some e → seen pr o.root fs (targetDir g i ++ r) = some e
  packages : ∀ i nd j, i ≠ 0 → g.nodes[i]? = some nd → jobsFor o g fetch i = some j → seen pr o.root fs (targetDir g i) = none →
    Obtainable env j (tar nd.pkg) fs
  packed : ∀ (i : Nat) (nd : Node Str P S), i ≠ 0 → g.nodes[i]? = some nd → Packed pr (pk.content nd.pkg) (env.untar (tar nd.pkg)).1
  built : ∀ (i : Nat) (nd : Node Str P S), i ≠ 0 → g.nodes[i]? = some nd →
    Built build (env.untar (tar nd.pkg)).1 (pk.scripts nd.pkg || !(pk.bins nd.pkg).isEmpty)
  /-- what is read from a file does not depend on more than its content hash -/
  sight : ∀ c c', env.xxh c = env.xxh c' → pr c = pr c'
  reading : ∀ c c', env.xxh c = env.xxh c' → build c = build c'

end Hoisted
end Oro
