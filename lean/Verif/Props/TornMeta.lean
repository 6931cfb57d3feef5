import Verif.Props.Torn
import Verif.Props.Hoisted
import Verif.Examples.Lockfile
/- C101, for node_modules/.orogene-meta.kdl (hoisted.rs:343-352, resolver.rs:443-460). -/

set_option linter.unusedSectionVars false

namespace Oro
namespace Hoisted
variable {P S V I : Type} [DecidableEq S] [DecidableEq V] [DecidableEq I]

/-- an entry that says nothing is not the entry of any package -/
theorem blank_not_eqv {v : LockView P S V I} {g : Graph Str P S} {i : Nat} {b : Bool} {ideal n : LNode V I} (h : lockNode v g i b = some ideal)
    (hn : Blank n) : n.eqv ideal = false := by
  have hr : ideal.resolved ≠ none := by
    unfold lockNode at h
    cases hx : g.nodes[i]? with
    | none => rw [hx] at h; cases h
    | some nd => rw [hx] at h; cases h; simp
  cases he : n.eqv ideal with
  | false => rfl
  | true =>
    unfold LNode.eqv at he
    simp only [Bool.and_eq_true, decide_eq_true_eq] at he
    have : n.resolved = ideal.resolved := by tauto
    rw [hn.resolved] at this
    exact absurd this.symm hr

/-- what pruning notices with the whole record, it notices with what is left of the record -/
theorem torn_noticed {c : Codec V I} {pk : Pkgs P} {v : LockView P S V I} {g g' : Graph Str P S} {l l0 l' : Lockfile V I} {t : KDoc}
    (h : l.Proper) (ht : Torn (l.toKdl c) t) (h0 : Lockfile.fromKdl c (l.toKdl c) = .ok l0) (h1 : Lockfile.fromKdl c t = .ok l')
    (hn : Noticed pk v g g' l0.packages) : Noticed pk v g g' l'.packages := by
  intro n hf hc
  refine hn n hf ?_
  rcases hc with hc | ⟨nd, i, ideal, act, a1, a2, a3, a4, a5⟩
  · exact .inl hc
  · rcases C101_entries h ht h0 h1 a4 with b | b
    · exact .inr ⟨nd, i, ideal, act, a1, a2, a3, b, a5⟩
    · rw [blank_not_eqv a3 b] at a5; cases a5

/-- **C101**, for the record of what is installed: when writing it was interrupted, the next install – of the same tree or of
another, as long as it is a change that an install with the whole record would have noticed – leaves exactly the packages of
its tree, whatever is left of the record. -/
theorem C101_record_partial (c : Codec V I) (pk : Pkgs P) (v : LockView P S V I) (g g' : Graph Str P S) (hg : Installable pk g)
    (hg' : Installable pk g') {l l0 : Lockfile V I} {t : KDoc} (hl : toLockfile v g = some l) (ht : Torn (l.toKdl c) t)
    (h0 : Lockfile.fromKdl c (l.toKdl c) = .ok l0) (hn : Noticed pk v g g' l0.packages) (d : Disk V I) (hd : Installed pk g d.tree)
    (hm : d.metaFile = (Lockfile.fromKdl c t).toOption.map Lockfile.packages) :
    ∃ r, applyTree pk v g' d = some r ∧ Installed pk g' r.1.tree ∧ Recorded v g' r.1.metaFile := by
  have hp : l.Proper := toLockfile_proper hg.tree hg.order hl
  cases h1 : Lockfile.fromKdl c t with
  | error e =>
    rw [h1] at hm
    exact C33_fresh pk v g' hg' d ⟨hm, .inr ((hd [] not_inBin_nil .dir).2 (.inr ⟨rfl, .inl rfl⟩))⟩
  | ok l' =>
    rw [h1] at hm
    exact C33_partial pk v g g' hg hg' d l'.packages hd hm (torn_noticed hp ht h0 h1 hn)

namespace Ex

def lock11 : Lockfile Nat Nat := (toLockfile v (pair 1 1)).getD ⟨0, ⟨[], true, [], none, none, none, [], [], [], []⟩, []⟩

theorem lock11_eq : toLockfile v (pair 1 1) = some lock11 := by
  obtain ⟨l, hl⟩ := toLockfile_isSome (tree 1 1) v
  simp [lock11, hl]

def read11 : Lockfile Nat Nat :=
  { version := lock11.version, root := lock11.root.norm true, packages := (sortKeys lock11.packages).map fun p => (p.1, p.2.norm false) }

/-- upgrading the unscoped package is noticed with the record as it is read back -/
theorem noticed_read : Noticed pk v (pair 1 1) (pair 2 1) read11.packages := by
  intro n hn hc
  refine noticed n hn ?_
  rcases hc with hc | ⟨nd, i, ideal, act, h1, h2, h3, h4, h5⟩
  · exact .inl hc
  · cases h1
    have h2' : IMap.get? [(['a'], 1), (sb, 2)] n = some i := h2
    have hm := IMap.mem_of_get? h2'
    simp only [List.mem_cons, Prod.mk.injEq, List.not_mem_nil, or_false] at hm
    rcases hm with ⟨rfl, rfl⟩ | ⟨rfl, rfl⟩
    · exfalso
      have : (read11.packages.get? ['a']).map (fun a => (lockNode v (pair 2 1) 1 false).map fun b => a.eqv b) = some (some false) := by
        decide +kernel
      rw [h4, h3] at this
      simp only [Option.map_some, Option.some.injEq] at this
      rw [h5] at this; cases this
    · exact .inl rfl

/-- a crash while the record of the first install was written, then the upgrade: whatever is left of the record -/
example {t : KDoc} (ht : Torn (lock11.toKdl ExL.codec) t) :
    ∃ r, applyTree pk v (pair 2 1) ⟨(after 1 1).tree, (Lockfile.fromKdl ExL.codec t).toOption.map Lockfile.packages⟩ = some r ∧
      Installed pk (pair 2 1) r.1.tree ∧ Recorded v (pair 2 1) r.1.metaFile :=
  C101_record_partial ExL.codec pk v (pair 1 1) (pair 2 1) (installable 1 1) (installable 2 1) lock11_eq ht
    (Lockfile.fromKdl_toKdl _ _ (toLockfile_proper (tree 1 1) (ord_of (installable 1 1)) lock11_eq)) noticed_read _ (after_ok 1 1).1 rfl

end Ex
end Hoisted
end Oro
