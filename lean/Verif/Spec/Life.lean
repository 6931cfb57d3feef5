import Verif.Model.Whole
import Verif.Spec.Whole
import Verif.Spec.Hoisted
import Verif.Spec.Works
import Verif.Spec.Agree
import Verif.Spec.Lockfile
/- Vocabulary for C86: the life of a project, command after command. -/

set_option linter.unusedSectionVars false

namespace Oro
namespace Life
open Cli Whole

variable {P S V I J F : Type} [DecidableEq S] [DecidableEq V] [DecidableEq I]

/-- the commands that change a project -/
inductive Cmd where
  | apply
  | reapply
  /-- the section the packages go to; names and requirements of the packages asked for (`none`: one cannot be resolved) -/
  | add (kind : Str) (resolved : Option (List (Str × Str)))
  /-- the names (`none`: one of them is no package name) -/
  | remove (names : Option (List Str))

/-- A command with its options, and what it meets: the answers of the registry, the number of requests at a time, and the order in
which things happen. -/
structure Call (P S : Type) where
  cmd : Cmd
  o : Opts
  fetch : S → Option (P × Manifest Str)
  concurrency : Nat
  sch : List (REvent S)

/-- Running a command, with the hoisted linker. -/
def run (ed : Editing J (Manifest Str) F) (k : Setting P S V I) (c : Call P S) (w : World Nm (Option KDoc) J) :
    World Nm (Option KDoc) J × Bool :=
  match c.cmd with
  | .apply => applyCmd ed.corgi c.o (hoisted (k.later c.fetch c.concurrency) c.sch) w
  | .reapply => reapplyCmd clear ed.corgi c.o (hoisted (k.later c.fetch c.concurrency) c.sch) w
  | .add kind resolved => addCmd ed c.o (hoisted (k.later c.fetch c.concurrency) c.sch) kind resolved w
  | .remove names => removeCmd ed c.o (hoisted (k.later c.fetch c.concurrency) c.sch) names w

/-- package.json as the command wants it: as it is, or edited; `none`: it cannot be read or edited -/
def wants (ed : Editing J (Manifest Str) F) (c : Cmd) (pkg : J) : Option J :=
  match c with
  | .apply | .reapply => some pkg
  | .add kind resolved => (ed.read pkg).bind fun f => (resolved.bind (addAll kind (ed.value f))).map fun v => ed.write (ed.withValue f v)
  | .remove names => (ed.read pkg).bind fun f => names.map fun ns => ed.write (ed.withValue f (ns.foldl removeFrom (ed.value f)))

/-- `apply` and `reapply` always install; `add` and `remove` unless told not to -/
def installs (c : Call P S) : Bool :=
  match c.cmd with
  | .apply | .reapply => true
  | _ => c.o.apply

/-- `--locked` has a meaning for `apply` and `reapply` only -/
def locked (c : Call P S) : Bool :=
  match c.cmd with
  | .apply | .reapply => c.o.locked
  | _ => false

/-- node_modules is removed first -/
def clears (c : Call P S) : Bool :=
  match c.cmd with
  | .reapply => true
  | _ => false

/-- The tree a command resolves to, and the manifest it resolves. -/
def ResolvesTo (ed : Editing J (Manifest Str) F) (k : Setting P S V I) (c : Call P S) (w : World Nm (Option KDoc) J) (m : Manifest Str)
    (g : Graph Str P S) : Prop :=
  (wants ed c.cmd w.pkg).bind ed.corgi = some m ∧
    Whole.resolve (k.later c.fetch c.concurrency) c.sch m (locked c) w.lock = some g

/-- What can be said of node_modules. -/
inductive Inside (P S : Type) where
  /-- nothing: an install was killed, files were edited, … -/
  | unknown
  /-- it is missing, or a folder without a readable meta file -/
  | fresh
  /-- it holds this tree -/
  | tree (g : Graph Str P S)

/-- node_modules is as said: for a tree, it has exactly the packages of the tree, and the meta file describes the tree. -/
def Says (k : Setting P S V I) (w : World Nm (Option KDoc) J) : Inside P S → Prop
  | .unknown => True
  | .fresh => FreshProject w
  | .tree g => Hoisted.Installable k.pk g ∧ Hoisted.Installed k.pk g w.nm.tree ∧ w.metaFile = .good ∧
      ∃ l l', toLockfile k.v g = some l ∧ w.nm.doc = l.toKdl k.c ∧ Lockfile.fromKdl k.c w.nm.doc = .ok l' ∧
        Hoisted.Recorded k.v g (some l'.packages)

/-- A change to the tree `g` that works out: from a fresh node_modules, or from a tree with a change that pruning notices. -/
def Changes (k : Setting P S V I) (x : Inside P S) (g : Graph Str P S) : Prop :=
  match x with
  | .unknown => False
  | .fresh => True
  | .tree g0 => ∀ recorded, Hoisted.Recorded k.v g0 (some recorded) → Hoisted.Noticed k.pk k.v g0 g recorded

/-- What is required of a command, if it resolves and is to install: plain packages that go by their own names, and a change from
the tree before it that pruning notices (nothing if node_modules is removed first). -/
def Fits (ed : Editing J (Manifest Str) F) (k : Setting P S V I) (c : Call P S) (w : World Nm (Option KDoc) J) (x : Inside P S) : Prop :=
  Whole.Quiet c.o k ∧ ∀ m g, installs c = true → c.o.lockfileOnly = false → ResolvesTo ed k c w m g →
    Works.Plain (k.later c.fetch c.concurrency).env ((lockOf k.c w.lock).map (·.tree k.toPackage)) m k.pk ∧
    (∀ (i : Nat) (nd : Node Str P S), i ≠ 0 → g.nodes[i]? = some nd → k.v.pkgName nd.pkg = nd.name) ∧
    (clears c = false → Changes k x g)

/-- what is in node_modules after a command -/
inductive Then (ed : Editing J (Manifest Str) F) (k : Setting P S V I) (c : Call P S) (w : World Nm (Option KDoc) J) (x : Inside P S) :
    Inside P S → Prop where
  /-- it installs what it resolves to -/
  | installed (m : Manifest Str) (g : Graph Str P S) : installs c = true → c.o.lockfileOnly = false → ResolvesTo ed k c w m g →
      Then ed k c w x (.tree g)
  /-- it installs nothing, but removes node_modules -/
  | removed : clears c = true → (c.o.lockfileOnly = true ∨ ∀ m g, ¬ ResolvesTo ed k c w m g) → Then ed k c w x .fresh
  /-- it leaves node_modules alone -/
  | left : clears c = false → (installs c = false ∨ c.o.lockfileOnly = true ∨ ∀ m g, ¬ ResolvesTo ed k c w m g) → Then ed k c w x x

/-- The life of a project: it begins with any node_modules (of which nothing is known unless it is fresh); commands are run, and in
between package.json and the lockfile are edited, or anything happens to node_modules. -/
inductive Lived (ed : Editing J (Manifest Str) F) (k : Setting P S V I) : World Nm (Option KDoc) J → Inside P S → Prop where
  | new (w : World Nm (Option KDoc) J) : FreshProject w → Lived ed k w .fresh
  | anything (w : World Nm (Option KDoc) J) : Lived ed k w .unknown
  | edited (w : World Nm (Option KDoc) J) (x : Inside P S) (pkg : J) (lock : Option KDoc) : Lived ed k w x →
      Lived ed k { w with pkg := pkg, lock := lock } x
  | command (w : World Nm (Option KDoc) J) (x y : Inside P S) (c : Call P S) : Lived ed k w x → Fits ed k c w x → Then ed k c w x y →
      Lived ed k (run ed k c w).1 y

/-- Packages are at the top level only, and have no scope in their names. -/
def Flat (g : Graph Str P S) : Prop := ∀ i π, LocatedAt g i π → π = [] ∨ ∃ n, π = [n] ∧ n.head? ≠ some '@'

/-- What is published does not change: two packages with the same name, address, version and integrity have the same contents. -/
def Immutable (k : Setting P S V I) : Prop :=
  ∀ (n : LNode V I) p q, Records n (k.v.resolved p) → Records n (k.v.resolved q) → k.v.pkgName p = k.v.pkgName q → k.pk.content p = k.pk.content q

/-- A command in a project without version conflicts (C76) and without scoped packages, with plain packages that go by their own
names; `ch n` is the package that goes by the name `n`. -/
structure AgreedCall (ed : Editing J (Manifest Str) F) (k : Setting P S V I) (c : Call P S) (w : World Nm (Option KDoc) J)
    (ch : Str → P × Manifest Str) : Prop where
  quiet : Whole.Quiet c.o k
  agreed : ∀ m, installs c = true → c.o.lockfileOnly = false → (wants ed c.cmd w.pkg).bind ed.corgi = some m →
    Works.Plain (k.later c.fetch c.concurrency).env ((lockOf k.c w.lock).map (·.tree k.toPackage)) m k.pk ∧
    Agreed (k.later c.fetch c.concurrency).env ((lockOf k.c w.lock).map (·.tree k.toPackage)) m ch ∧
    (∀ d ∈ m.deps ++ m.optDeps ++ m.devDeps, k.env.parse d.1 d.2 ≠ none) ∧
    ∀ n, Reached m ch n → k.v.pkgName (ch n).1 = n ∧ n.head? ≠ some '@'

/-- The life of a project that never has version conflicts or scoped packages: it begins without node_modules (or with one that has no
readable meta file); commands are run, and package.json and the lockfile are edited in between. Which package goes by a name may change
from command to command. -/
inductive AgreedLife (ed : Editing J (Manifest Str) F) (k : Setting P S V I) : World Nm (Option KDoc) J → Prop where
  | new (w : World Nm (Option KDoc) J) : FreshProject w → AgreedLife ed k w
  | edited (w : World Nm (Option KDoc) J) (pkg : J) (lock : Option KDoc) : AgreedLife ed k w →
      AgreedLife ed k { w with pkg := pkg, lock := lock }
  | command (w : World Nm (Option KDoc) J) (c : Call P S) (ch : Str → P × Manifest Str) : AgreedLife ed k w → AgreedCall ed k c w ch →
      AgreedLife ed k (run ed k c w).1

end Life
end Oro
