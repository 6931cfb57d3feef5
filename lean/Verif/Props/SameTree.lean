import Verif.Proofs.Relocked
import Verif.Props.Relock
import Verif.Props.Lockfile
/- Two finished resolves with the same packages at the same places write the same lockfile. -/

set_option linter.unusedSectionVars false

namespace Oro
open Graph
variable {P S V I : Type} [DecidableEq S]

section
variable {env : Env Str P S}

theorem linked_declares {g : Graph Str P S} (hg : GInv env g) {i : Nat} {n : Str} {e : Edge S} (h : Linked g i n e) : Declares g i n e.spec e.ty := by
  obtain ⟨nd, k, h1, h2, h3⟩ := h
  obtain ⟨e', dn, g1, g2, g3, g4⟩ := hg.depReg i nd n k h1 h2
  rw [h3] at g1; cases g1
  obtain ⟨sn, dn', k1, k2, _, k4⟩ := hg.edgeReg k e h3
  rw [g2, h1] at k1; cases k1
  rw [g3] at k2; cases k2
  rw [g4] at k4
  exact ⟨nd, h1, k4⟩

end

/-- two finished resolves of one project with the same packages, with the same requirements, at the same places -/
theorem same_tree_same_contents {env0 env1 : Env Str P S} {lock0 lock1 : Option (LockTree Str P)} {root : Node Str P S} {s0 s : RState Str P S}
    {v : LockView P S V I}
    (hr0 : IsRoot env0 root) (hr1 : IsRoot env1 root) (h0 : RReach env0 lock0 root s0) (h : RReach env1 lock1 root s)
    (hd0 : s0.done = true) (hd : s.done = true)
    (hcore : ∀ {i j : Nat} {nd jn : Node Str P S} {π : List Str}, i ≠ 0 → j ≠ 0 → s0.graph.nodes[i]? = some nd → LocatedAt s0.graph i π →
      s.graph.nodes[j]? = some jn → LocatedAt s.graph j π → jn.pkg = nd.pkg ∧ ∀ n, jn.reqs.get? n = nd.reqs.get? n)
    (hloc : ∀ π, (∃ i, LocatedAt s0.graph i π) ↔ ∃ j, LocatedAt s.graph j π)
    (hv : ∀ i nd, i ≠ 0 → s0.graph.nodes[i]? = some nd → ValidName nd.name)
    {l : Lockfile V I} (hl : toLockfile v s0.graph = some l) :
    (∀ π p, Installed s.graph π p ↔ Installed s0.graph π p) ∧ ∃ l2, toLockfile v s.graph = some l2 ∧ SameLockfile l2 l := by
  have hg := (h0.sinv hr0).pinv.ginv
  have hg1 := (h.sinv hr1).pinv.ginv
  obtain ⟨r0, r0n, r0r, r0p, r0m⟩ := h0.root_reqs hr0
  obtain ⟨r1, r1n, r1r, r1p, r1m⟩ := h.root_reqs hr1
  have hsame : ∀ {i j : Nat} {nd jn : Node Str P S} {π : List Str}, s0.graph.nodes[i]? = some nd → LocatedAt s0.graph i π →
      s.graph.nodes[j]? = some jn → LocatedAt s.graph j π →
      jn.pkg = nd.pkg ∧ (∀ n, jn.reqs.get? n = nd.reqs.get? n) ∧ (i ≠ 0 → j ≠ 0 ∧ jn.name = nd.name) := by
    intro i j nd jn π hi hil hj hjl
    by_cases hπ : π = []
    · subst hπ
      have e1 := located_root hil
      have e2 := located_root hjl
      subst e1; subst e2
      rw [hi] at r0n; cases r0n
      rw [hj] at r1n; cases r1n
      exact ⟨r1p.trans r0p.symm, fun n => by rw [r1r, r0r], fun h => absurd rfl h⟩
    · have hi0 : i ≠ 0 := by rintro rfl; exact hπ (located_fn hg hil (.root hi))
      have hj0 : j ≠ 0 := by rintro rfl; exact hπ (located_fn hg1 hjl (.root hj))
      obtain ⟨k1, k2⟩ := hcore hi0 hj0 hi hil hj hjl
      refine ⟨k1, k2, fun _ => ⟨hj0, ?_⟩⟩
      · cases hil with
        | root => exact absurd rfl hi0
        | @inside _ _ σ nd' a1 _ _ =>
          rw [hi] at a1; cases a1
          generalize hτ : σ ++ [nd.name] = τ at hjl
          cases hjl with
          | root => exact absurd rfl hj0
          | inside b1 _ _ =>
            rw [hj] at b1; cases b1
            have := (List.append_inj' hτ rfl).2
            simpa using this.symm
  have hinst : ∀ π p, Installed s.graph π p ↔ Installed s0.graph π p := by
    intro π p
    constructor
    · rintro ⟨j, jn, hjl, hj, rfl⟩
      obtain ⟨i, hil⟩ := (hloc π).2 ⟨j, hjl⟩
      obtain ⟨nd, hi⟩ := located_node hil
      exact ⟨i, nd, hil, hi, (hsame hi hil hj hjl).1.symm⟩
    · rintro ⟨i, nd, hil, hi, rfl⟩
      obtain ⟨j, hjl⟩ := (hloc π).1 ⟨i, hil⟩
      obtain ⟨jn, hj⟩ := located_node hjl
      exact ⟨j, jn, hjl, hj, (hsame hi hil hj hjl).1⟩
  refine ⟨hinst, ?_⟩
  obtain ⟨l2, hl2⟩ := toLockfile_isSome hg1.folderTree v
  refine ⟨l2, hl2, ?_⟩
  have hv1 : ∀ j jn, j ≠ 0 → s.graph.nodes[j]? = some jn → ValidName jn.name := by
    intro j jn hj0 hj
    obtain ⟨π, hjl⟩ := located_exists hg1 (lt_of_get hj)
    obtain ⟨i, hil⟩ := (hloc π).2 ⟨j, hjl⟩
    obtain ⟨nd, hi⟩ := located_node hil
    have hi0 : i ≠ 0 := by
      rintro rfl
      rw [located_fn hg hil (.root hi)] at hjl
      exact hj0 (located_root hjl)
    rw [((hsame hi hil hj hjl).2.2 hi0).2]
    exact hv i nd hi0 hi
  obtain ⟨_, wf0, ent0, rt0⟩ := C15_one_entry_each hr0 h0 hv hl
  obtain ⟨_, wf1, ent1, rt1⟩ := C15_one_entry_each hr1 h hv1 hl2
  -- links and requirements are the same thing when everything is done
  have hreqs : ∀ {i j : Nat} {nd jn : Node Str P S} {π : List Str}, s0.graph.nodes[i]? = some nd → LocatedAt s0.graph i π →
      s.graph.nodes[j]? = some jn → LocatedAt s.graph j π → ∀ ty n raw, (∃ e, Linked s.graph j n e ∧ e.ty = ty ∧ v.reqStr e.spec = raw) ↔
        ∃ e, Linked s0.graph i n e ∧ e.ty = ty ∧ v.reqStr e.spec = raw := by
    intro i j nd jn π hi hil hj hjl ty n raw
    have hrq := (hsame hi hil hj hjl).2.1 n
    constructor
    · rintro ⟨e, e1, rfl, rfl⟩
      obtain ⟨jn', k1, k2⟩ := linked_declares hg1 e1
      rw [hj] at k1; cases k1
      rw [hrq] at k2
      obtain ⟨e', f1, _, f3, f4⟩ := (C04_all_linked hr0 h0 hd0).1 i n _ _ ⟨nd, hi, k2⟩
      exact ⟨e', f1, f4, by rw [f3]⟩
    · rintro ⟨e, e1, rfl, rfl⟩
      obtain ⟨nd', k1, k2⟩ := linked_declares hg e1
      rw [hi] at k1; cases k1
      rw [← hrq] at k2
      obtain ⟨e', f1, _, f3, f4⟩ := (C04_all_linked hr1 h hd).1 j n _ _ ⟨jn, hj, k2⟩
      exact ⟨e', f1, f4, by rw [f3]⟩
  have hopt : ∀ {a b : LNode V I}, (∀ ty k raw, (a.section ty).get? k = some raw ↔ (b.section ty).get? k = some raw) → SameReqs a b := by
    intro a b hab ty k
    cases hx : (a.section ty).get? k with
    | some x => rw [(hab ty k x).1 hx]
    | none =>
      cases hy : (b.section ty).get? k with
      | none => rfl
      | some y => rw [(hab ty k y).2 hy] at hx; cases hx
  have hrec : ∀ {a b : LNode V I} {x : Resolved V I}, Records a x → Records b x →
      a.version = b.version ∧ a.resolved = b.resolved ∧ a.integrity = b.integrity := by
    intro a b x ha hb
    cases x <;> (obtain ⟨a1, a2, a3⟩ := ha; obtain ⟨b1, b2, b3⟩ := hb; exact ⟨a2.trans b2.symm, a1.trans b1.symm, a3.trans b3.symm⟩)
  have hp0 := toLockfile_proper hg.folderTree hg.ord hl
  have hp1 := toLockfile_proper hg1.folderTree hg1.ord hl2
  have hnode : ∀ {i j : Nat} {nd jn : Node Str P S} {π : List Str} {a b : LNode V I}, i ≠ 0 → s0.graph.nodes[i]? = some nd →
      LocatedAt s0.graph i π → j ≠ 0 → s.graph.nodes[j]? = some jn → LocatedAt s.graph j π →
      l2.packages.get? (joinPath π) = some a → l.packages.get? (joinPath π) = some b → SameNode a b := by
    intro i j nd jn π a b hi0 hi hil hj0 hj hjl ha hb
    obtain ⟨b', b1, b2, b3, b4, b5⟩ := ent0 i nd π hi0 hi hil
    obtain ⟨a', a1, a2, a3, a4, a5⟩ := ent1 j jn π hj0 hj hjl
    rw [hb] at b1; cases b1
    rw [ha] at a1; cases a1
    rw [(hsame hi hil hj hjl).1] at a3 a4
    obtain ⟨c1, c2, c3⟩ := hrec a4 b4
    refine ⟨⟨a2.trans b2.symm, c1, c2, c3, hopt ?_⟩, a3.trans b3.symm, ?_⟩
    · intro ty k raw
      rw [a5, b5]
      exact hreqs hi hil hj hjl ty k raw
    · rw [(hp1.entries _ (IMap.mem_of_get? ha)).1, (hp0.entries _ (IMap.mem_of_get? hb)).1]
  refine ⟨?_, ?_, ?_⟩
  · rw [(toLockfile_root hl2).2.1, (toLockfile_root hl).2.1]
  · have x0 := (toLockfile_root hl).1
    have x1 := (toLockfile_root hl2).1
    have hreq0 := hopt (a := l2.root) (b := l.root) (by
      intro ty k raw
      rw [rt1, rt0]
      exact hreqs r0n (.root r0n) r1n (.root r1n) ty k raw)
    simp only [lockNode, r0n, Option.map_some, Option.some.injEq] at x0
    simp only [lockNode, r1n, Option.map_some, Option.some.injEq] at x1
    have hpkg : r1.pkg = r0.pkg := r1p.trans r0p.symm
    rw [hpkg] at x1
    refine ⟨⟨?_, ?_, ?_, ?_, hreq0⟩, ?_, ?_⟩
    · rw [← x0, ← x1]
      show s.graph.nodePath 0 = s0.graph.nodePath 0
      rw [nodePath_root r0n, nodePath_root r1n]
    all_goals rw [← x0, ← x1]
  · intro k
    cases ha : l2.packages.get? k with
    | none =>
      cases hb : l.packages.get? k with
      | none => exact .inl ⟨rfl, rfl⟩
      | some b =>
        exfalso
        obtain ⟨i, hi0, hi, hln, hkey⟩ := toLockfile_entry hl (IMap.mem_of_get? hb)
        obtain ⟨π, hil⟩ := located_exists hg hi
        obtain ⟨j, hjl⟩ := (hloc π).1 ⟨i, hil⟩
        obtain ⟨nd, hnd⟩ := located_node hil
        obtain ⟨jn, hj⟩ := located_node hjl
        obtain ⟨a', a1, _⟩ := ent1 j jn π ((hsame hnd hil hj hjl).2.2 hi0).1 hj hjl
        have : k = joinPath π := by
          rw [show k = _ from hkey, (lockNode_path hln).1, ((locatedAt_iff hg.folderTree hg.ord).1 hil).2]
        rw [this, a1] at ha
        cases ha
    | some a =>
      obtain ⟨j, hj0, hj, hln, hkey⟩ := toLockfile_entry hl2 (IMap.mem_of_get? ha)
      obtain ⟨π, hjl⟩ := located_exists hg1 hj
      obtain ⟨i, hil⟩ := (hloc π).2 ⟨j, hjl⟩
      obtain ⟨nd, hnd⟩ := located_node hil
      obtain ⟨jn, hjn⟩ := located_node hjl
      have hi0 : i ≠ 0 := by
        rintro rfl
        rw [located_fn hg hil (.root hnd)] at hjl
        exact hj0 (located_root hjl)
      have hk : k = joinPath π := by
        rw [show k = _ from hkey, (lockNode_path hln).1, ((locatedAt_iff hg1.folderTree hg1.ord).1 hjl).2]
      subst hk
      obtain ⟨b, b1, _⟩ := ent0 i nd π hi0 hnd hil
      exact .inr ⟨a, b, rfl, b1, hnode hi0 hnd hil hj0 hjn hjl ha b1⟩

/-- two finished resolves of one project with the same packages, with the same requirements, at the same places -/
theorem same_tree_same_lockfile {env0 env1 : Env Str P S} {lock0 lock1 : Option (LockTree Str P)} {root : Node Str P S} {s0 s : RState Str P S}
    {v : LockView P S V I} {c : Codec V I}
    (hr0 : IsRoot env0 root) (hr1 : IsRoot env1 root) (h0 : RReach env0 lock0 root s0) (h : RReach env1 lock1 root s)
    (hd0 : s0.done = true) (hd : s.done = true)
    (hcore : ∀ {i j : Nat} {nd jn : Node Str P S} {π : List Str}, i ≠ 0 → j ≠ 0 → s0.graph.nodes[i]? = some nd → LocatedAt s0.graph i π →
      s.graph.nodes[j]? = some jn → LocatedAt s.graph j π → jn.pkg = nd.pkg ∧ ∀ n, jn.reqs.get? n = nd.reqs.get? n)
    (hloc : ∀ π, (∃ i, LocatedAt s0.graph i π) ↔ ∃ j, LocatedAt s.graph j π)
    (hv : ∀ i nd, i ≠ 0 → s0.graph.nodes[i]? = some nd → ValidName nd.name)
    {l : Lockfile V I} (hl : toLockfile v s0.graph = some l) :
    (∀ π p, Installed s.graph π p ↔ Installed s0.graph π p) ∧ ∃ l2, toLockfile v s.graph = some l2 ∧ l2.toKdl c = l.toKdl c := by
  obtain ⟨h1, l2, h2, h3⟩ := same_tree_same_contents hr0 hr1 h0 h hd0 hd hcore hloc hv hl
  exact ⟨h1, l2, h2, C14_canonical c (toLockfile_wf h2) (toLockfile_wf hl) h3⟩

end Oro
