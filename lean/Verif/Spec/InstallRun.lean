import Verif.Spec.Hoisted
import Verif.Spec.TarRun
import Verif.Model.InstallRun
/-
What C92 talks about.
-/

set_option linter.unusedSectionVars false

namespace Oro
namespace Hoisted
variable {P S : Type}

/-- What one sees below the project's node_modules.  Of the contents of files one sees what `pr` tells of them. -/
def seen (pr : Bytes → Bytes) (root : Loc) (fs : Tar.FS) : Tree := fun p =>
  match fs.files (root ++ nmWord :: p) with
  | some i => some (.file (pr (fs.content i)))
  | none => if fs.dirs (root ++ nmWord :: p) then some .dir else none

/-- The content of a package is what is in its tarball: the files of the archive (without the first component of their paths),
and the folders they are in. -/
def Packed (pr : Bytes → Bytes) (content : Loc → Option Entry) (es : List Tar.Entry) : Prop :=
  ∀ r e, content r = some e ↔
    (∃ f ∈ es, f.regular = true ∧ (RPath.components f.header).tail = r.map .normal ∧ e = .file (pr f.content)) ∨
    (e = .dir ∧ ∃ f ∈ es, f.regular = true ∧ ∃ s, s ≠ [] ∧ (RPath.components f.header).tail = (r ++ s).map .normal)

/-- A package that can be had: there is one tarball with the expected integrity (or: one tarball comes if there is none), it is a
sound archive with ordinary paths, and it can be fetched or is in the cache; if it is in the cache, it is there undamaged. -/
structure Obtainable (env : Tar.Env) (j : Tar.Job) (t : Bytes) (fs : Tar.FS) : Prop where
  fits : ∀ t', j.Fits env t' ↔ t' = t
  complete : (env.untar t).2 = true
  plain : Tar.Plain (env.untar t).1
  sound : Tar.Sound env (env.untar t).1
  served : Tar.Served j t fs
  cached : ∀ i, j.expected = some i → ∀ ce, fs.index i = some ce → ∃ idx, ce = .good idx ∧ Tar.Stocked env fs idx.files

/-- The archive has a manifest, from which `build` reads `b`. -/
def Built (build : Bytes → Option Bool) (es : List Tar.Entry) (b : Bool) : Prop :=
  ∃ f ∈ es, f.regular = true ∧ (RPath.components f.header).tail = [.normal Tar.kPackageJson] ∧ build f.content = some b

/-- A project folder with an empty node_modules, on a file system in which what is in a folder's folder is in a folder. -/
structure EmptyModules (root : Loc) (fs : Tar.FS) : Prop where
  closed : ∀ d, fs.dirs d = true → ∀ q, q <+: d → fs.dirs q = true
  modules : fs.dirs (root ++ [nmWord]) = true
  above : ∀ q, q <+: root ++ [nmWord] → fs.files q = none
  empty : ∀ p, p ≠ [] → fs.files (root ++ nmWord :: p) = none ∧ fs.dirs (root ++ nmWord :: p) = false

/-- What a first installation starts from. -/
structure Start (env : Tar.Env) (build : Bytes → Option Bool) (pr : Bytes → Bytes) (pk : Pkgs P) (g : Graph Str P S) (o : XOpts)
    (fetch : P → Option Tar.Integrity × Option (List Tar.Ev)) (tar : P → Bytes) (fs : Tar.FS) : Prop where
  tree : Installable pk g
  bare : EmptyModules o.root fs
  packages : ∀ i nd j, i ≠ 0 → g.nodes[i]? = some nd → jobsFor o g fetch i = some j → Obtainable env j (tar nd.pkg) fs
  packed : ∀ (i : Nat) (nd : Node Str P S), i ≠ 0 → g.nodes[i]? = some nd → Packed pr (pk.content nd.pkg) (env.untar (tar nd.pkg)).1
  built : ∀ (i : Nat) (nd : Node Str P S), i ≠ 0 → g.nodes[i]? = some nd →
    Built build (env.untar (tar nd.pkg)).1 (pk.scripts nd.pkg || !(pk.bins nd.pkg).isEmpty)
  /-- what is read from a file does not depend on more than its content hash -/
  sight : ∀ c c', env.xxh c = env.xxh c' → pr c = pr c'
  reading : ∀ c c', env.xxh c = env.xxh c' → build c = build c'

end Hoisted
end Oro
