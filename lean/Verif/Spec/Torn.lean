import Verif.Spec.Lockfile
/-
Vocabulary for C101: what is left of a lockfile when the program, or the machine, dies while it is being written
(`fs::write`, maintainer.rs:506-512: the file is emptied and then filled from the front).

The KDL text itself is not modelled.  These are the documents that the beginning of a written text can be read as: a block
that is not closed and a string that is not terminated are no KDL, so only complete nodes are left – and perhaps a last node
of which the text stops before its block, in the middle of its name or between its arguments.  Anything else is rejected by
the KDL reader, which is the case of no document at all.
-/

set_option linter.unusedSectionVars false

namespace Oro
variable {V I : Type}

/-- The string arguments of a node. -/
def KNode.strings (k : KNode) : List Str := k.entries.filterMap fun e => if e.1.isNone then e.2.asStr else none

/-- The node `s` is what is left of `k` when the text stops before the block of `k`. -/
structure StubOf (k s : KNode) : Prop where
  name : s.name <+: k.name
  strings : s.strings <+: k.strings
  block : s.children = none

/-- The document `t` is what is left of the document `doc`. -/
inductive Torn (doc : KDoc) : KDoc → Prop
  | after (n : Nat) : Torn doc (doc.take n)
  | within {front rest : KDoc} {k s : KNode} : doc = front ++ k :: rest → StubOf k s → Torn doc (front ++ [s])

/-- The entry says nothing: no source, no version, no integrity, no requirements. -/
structure Blank (n : LNode V I) : Prop where
  resolved : n.resolved = none
  version : n.version = none
  integrity : n.integrity = none
  reqs : ∀ ty, n.section ty = []

end Oro
