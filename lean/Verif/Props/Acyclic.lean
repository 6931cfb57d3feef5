import Verif.Proofs.Acyclic
import Verif.Props.Agree
import Verif.Props.Endless
/- C77: resolving ends if no package requires itself through others. -/

set_option linter.unusedSectionVars false

namespace Oro
variable {N P S : Type} [DecidableEq N] [DecidableEq S]
open Graph

section
variable {env : Env N P S} {lock : Option (LockTree N P)} {m : Manifest N} {rank : P → Nat} {depth width : Nat} {nm : N} {pk : P}
  {root : Node N P S} {s : RState N P S}

/-- **C77**, size of the tree, when no package requires itself through others. -/
theorem acyclic_size (hr : Node.new env.parse nm pk m true = some root) (hac : Acyclic env lock m rank depth width)
    (h : RReach env lock root s) : Ranked env lock m s.graph ∧
    s.graph.nodes.length ≤ 1 + (m.deps.length + m.optDeps.length + m.devDeps.length) * treeSize width depth := by
  have hr' : IsRoot env root := ⟨nm, pk, m, hr⟩
  obtain ⟨_, _, n3, _, n5, n6⟩ := nodeNew_spec hr
  obtain ⟨h1, h2⟩ := h.graph_ind hr' (I := fun g => Ranked env lock m g ∧
      (g.nodes.map (future rank depth width)).sum ≤ 1 + (m.deps.length + m.optDeps.length + m.devDeps.length) * treeSize width depth) (by
    refine ⟨⟨?_, ?_⟩, ?_⟩
    · intro i nd h0 hi
      cases i with
      | zero => exact absurd rfl h0
      | succ i => simp at hi
    · intro nd hi
      simp only [List.getElem?_cons_zero, Option.some.injEq] at hi
      subst hi; exact n6
    · simp only [List.map_cons, List.map_nil, List.sum_cons, List.sum_nil, Nat.add_zero]
      unfold future placeRank
      rw [n3]
      simp only [Option.isNone_none, if_true]
      refine Nat.add_le_add_left (Nat.mul_le_mul_right _ ?_) 1
      have := mkReqs_length n6
      unfold openReqs
      exact Nat.le_trans (List.length_filter_le _ _) (by simpa using this))
    (fun g g' hg hi hs => ⟨(hi.1.step hac hg hs).1, Nat.le_trans (hi.1.step hac hg hs).2 hi.2⟩)
  refine ⟨h1, Nat.le_trans ?_ h2⟩
  generalize s.graph.nodes = l
  induction l with
  | nil => simp
  | cons a l ih =>
    simp only [List.length_cons, List.map_cons, List.sum_cons]
    have : 1 ≤ future rank depth width a := by unfold future; omega
    omega

/-- **C77** for registries in which no package requires itself through others: every run is over after a number of events that
depends on the project, the depth and the width of the registry alone. Missing: registries with cycles, for which it is false
(`C77_fails`) – unless the lockfile settles everything (C75) or there are no version conflicts (C76). -/
theorem C77_acyclic_partial (hr : Node.new env.parse nm pk m true = some root) (hac : Acyclic env lock m rank depth width)
    {evs : List (REvent S)} (h : rrun env lock (rinit root) evs = some (.ok s)) :
    evs.length ≤ (1 + 3 * (m.deps.length + m.optDeps.length + m.devDeps.length)) +
      (1 + 3 * width) * ((m.deps.length + m.optDeps.length + m.devDeps.length) * treeSize width depth) := by
  have hr' : IsRoot env root := ⟨nm, pk, m, hr⟩
  have hreach := rrun_reach evs .init h
  obtain ⟨hk, hsize⟩ := acyclic_size hr hac hreach
  refine Nat.le_trans (C77_bounded_partial h) ?_
  obtain ⟨rn, hrn, _⟩ := (hreach.sinv hr').pinv.ginv.root
  cases hnodes : s.graph.nodes with
  | nil => rw [hnodes] at hrn; cases hrn
  | cons a l =>
    rw [hnodes] at hsize
    rw [List.map_cons, List.sum_cons]
    refine Nat.add_le_add ?_ ?_
    · have := mkReqs_length (hk.root a (by rw [hnodes]; rfl))
      simp only [if_true] at this
      omega
    · have hle : (l.map fun nd => 1 + 3 * nd.reqs.length).sum ≤ (1 + 3 * width) * l.length := by
        have hall : ∀ x ∈ l, x.reqs.length ≤ width := by
          intro x hx
          obtain ⟨j, hj⟩ := List.getElem?_of_mem hx
          obtain ⟨m', k1, k2⟩ := hk.node (j + 1) x (by omega) (by rw [hnodes]; exact hj)
          have h1 := mkReqs_length k2
          have h2 := hac.width _ _ k1
          simp at h1
          omega
        clear hnodes hsize
        induction l with
        | nil => simp
        | cons x l ih =>
          simp only [List.map_cons, List.sum_cons, List.length_cons, Nat.mul_add, Nat.mul_one]
          have h1 := hall x (by simp)
          have h2 := ih (fun y hy => hall y (List.mem_cons_of_mem _ hy))
          omega
      refine Nat.le_trans hle (Nat.mul_le_mul_left _ ?_)
      simp only [List.length_cons] at hsize
      omega

end

/-! ### concrete case: the registry of `C01_fails`, with two levels and conflicting versions -/

namespace Ex

def man1 : Manifest Nat := { deps := [(1, ['1']), (2, ['1']), (3, ['1'])] }

def rank1 (p : Nat × Nat) : Nat := 3 - p.1

theorem fetch1 {spec : Nat × Str} {p : Nat × Nat} {m : Manifest Nat} (h : env1.fetch spec = some (p, m)) :
    p.1 = spec.1 ∧ ((p = (1, 1) ∧ m = { deps := [(2, ['2']), (3, ['2'])] }) ∨ (p = (2, 1) ∧ m = {}) ∨ (p = (2, 2) ∧ m = { deps := [(3, ['1'])] }) ∨
      (p = (3, 1) ∧ m = {}) ∨ (p = (3, 2) ∧ m = {})) := by
  have hl : ∃ r, env1.fetch spec = some ((spec.1, r.1), { deps := r.2 }) ∧ (spec, r) ∈ ([((1, ['1']), 1, [(2, ['2']), (3, ['2'])]), ((2, ['1']), 1, []),
      ((2, ['2']), 2, [(3, ['1'])]), ((3, ['1']), 1, []), ((3, ['2']), 2, [])] : List ((Nat × Str) × Nat × List (Nat × Str))) := by
    simp only [env1, mkEnv] at h ⊢
    generalize ht : ([((1, ['1']), 1, [(2, ['2']), (3, ['2'])]), ((2, ['1']), 1, []),
      ((2, ['2']), 2, [(3, ['1'])]), ((3, ['1']), 1, []), ((3, ['2']), 2, [])] : List ((Nat × Str) × Nat × List (Nat × Str))) = tb at h ⊢
    cases hlk : tb.lookup spec with
    | none => rw [hlk] at h; cases h
    | some r =>
      refine ⟨r, rfl, ?_⟩
      clear ht h
      induction tb with
      | nil => cases hlk
      | cons a tb ih =>
        obtain ⟨k, v⟩ := a
        simp only [List.lookup] at hlk
        split at hlk
        · rename_i hk
          cases hlk
          rw [eq_of_beq hk]
          exact List.mem_cons_self
        · exact List.mem_cons_of_mem _ (ih hlk)
  obtain ⟨r, h1, h2⟩ := hl
  rw [h1] at h
  simp only [Option.some.injEq, Prod.mk.injEq] at h
  obtain ⟨rfl, rfl⟩ := h
  refine ⟨rfl, ?_⟩
  simp only [List.mem_cons, Prod.mk.injEq, List.not_mem_nil, or_false] at h2
  rcases h2 with ⟨rfl, rfl⟩ | ⟨rfl, rfl⟩ | ⟨rfl, rfl⟩ | ⟨rfl, rfl⟩ | ⟨rfl, rfl⟩
  · exact .inl ⟨rfl, rfl⟩
  · exact .inr (.inl ⟨rfl, rfl⟩)
  · exact .inr (.inr (.inl ⟨rfl, rfl⟩))
  · exact .inr (.inr (.inr (.inl ⟨rfl, rfl⟩)))
  · exact .inr (.inr (.inr (.inr ⟨rfl, rfl⟩)))

theorem known1 {p : Nat × Nat} {m : Manifest Nat} (h : KnownPackage env1 none p m) :
    m.deps.length ≤ 2 ∧ m.optDeps = [] ∧ 1 ≤ p.1 ∧ p.1 ≤ 3 ∧ ∀ n raw, (n, raw) ∈ m.deps → p.1 < n ∧ n ≤ 3 := by
  rcases h with ⟨spec, h⟩ | ⟨l, _, _, hl, _⟩
  · rcases (fetch1 h).2 with ⟨rfl, rfl⟩ | ⟨rfl, rfl⟩ | ⟨rfl, rfl⟩ | ⟨rfl, rfl⟩ | ⟨rfl, rfl⟩ <;>
      refine ⟨by decide, rfl, by decide, by decide, ?_⟩ <;> intro n raw hm <;> simp at hm
    · rcases hm with ⟨rfl, _⟩ | ⟨rfl, _⟩ <;> decide
    · obtain ⟨rfl, _⟩ := hm; decide
  · cases hl

/-- the hypotheses of `C77_acyclic_partial` are met -/
theorem acyclic1 : Acyclic env1 none man1 rank1 3 2 where
  project := by
    intro n raw spec p hm hp hoff
    rcases hoff with ⟨m', hf⟩ | ⟨l, _, _, hl, _⟩
    · have := (known1 (.inl ⟨_, hf⟩)).2.2
      unfold rank1
      omega
    · cases hl
  package := by
    intro p m' n raw spec p' hk hm hp hoff
    rcases hoff with ⟨m'', hf⟩ | ⟨l, _, _, hl, _⟩
    · obtain ⟨_, h2, h3, h4, h5⟩ := known1 hk
      rw [h2, List.append_nil] at hm
      obtain ⟨h6, h7⟩ := h5 n raw hm
      have he : p'.1 = n := by
        have := (fetch1 hf).1
        simp only [env1, mkEnv, Option.some.injEq] at hp
        rw [this, ← hp]
      unfold rank1
      omega
    · cases hl
  width := by
    intro p m' hk
    obtain ⟨h1, h2, _⟩ := known1 hk
    rw [h2]
    simpa using h1

/-- so every resolve of that project is over after at most 157 events -/
example {evs : List (REvent (Nat × Str))} {s : St} (h : rrun env1 none (rinit root1) evs = some (.ok s)) : evs.length ≤ 157 :=
  C77_acyclic_partial (nm := 0) (pk := (0, 0)) (m := man1) rfl acyclic1 h

end Ex
end Oro
