import Verif.Proofs.Acyclic
/- What every package and requirement of a resolved tree has, if it passes from requirements to the packages answered to them. -/

set_option linter.unusedSectionVars false

namespace Oro
open Graph
variable {N P S : Type} [DecidableEq N] [DecidableEq S] {env : Env N P S} {root : Node N P S} {s : RState N P S}

/-- without a lockfile: every package was answered to a request with the property, made under its name -/
theorem RReach.closed {Q : N → S → Prop} (hr : IsRoot env root) (h : RReach env none root s)
    (h0 : ∀ n spec ty, root.reqs.get? n = some (spec, ty) → Q n spec)
    (hc : ∀ n spec p m n' raw spec', Q n spec → env.fetch spec = some (p, m) → (n', raw) ∈ m.deps ++ m.optDeps →
      env.parse n' raw = some spec' → Q n' spec') :
    (∀ (i : Nat) (nd : Node N P S), s.graph.nodes[i]? = some nd → i ≠ 0 → ∃ spec m, Q nd.name spec ∧ env.fetch spec = some (nd.pkg, m) ∧
      mkReqs env.parse m false = some nd.reqs) ∧
    (∀ i n spec ty, Declares s.graph i n spec ty → Q n spec) := by
  suffices key : (∃ nd, s.graph.nodes[0]? = some nd ∧ nd.reqs = root.reqs) ∧
      ∀ (i : Nat) (nd : Node N P S), s.graph.nodes[i]? = some nd → i ≠ 0 → ∃ spec m, Q nd.name spec ∧ env.fetch spec = some (nd.pkg, m) ∧
        mkReqs env.parse m false = some nd.reqs by
    refine ⟨key.2, ?_⟩
    rintro i n spec ty ⟨nd, h1, h2⟩
    by_cases hz : i = 0
    · subst hz
      obtain ⟨rd, a, b⟩ := key.1
      rw [a] at h1; cases h1
      rw [b] at h2
      exact h0 n spec ty h2
    · obtain ⟨sp, m, a, b, c⟩ := key.2 i nd h1 hz
      obtain ⟨raw, hin, hpa⟩ := mkReqs_from c h2
      exact hc _ _ _ _ _ _ _ a b (by simpa using hin) hpa
  refine h.graph_ind hr (I := fun g => (∃ nd, g.nodes[0]? = some nd ∧ nd.reqs = root.reqs) ∧
      ∀ (i : Nat) (nd : Node N P S), g.nodes[i]? = some nd → i ≠ 0 → ∃ spec m, Q nd.name spec ∧ env.fetch spec = some (nd.pkg, m) ∧
        mkReqs env.parse m false = some nd.reqs) ?_ ?_
  · refine ⟨⟨root, rfl, rfl⟩, ?_⟩
    intro i nd hi hz
    cases i with
    | zero => exact absurd rfl hz
    | succ i => simp at hi
  · intro g g' hi ⟨hroot, hn⟩ hs
    cases hs with
    | link d hpre hsd =>
      obtain ⟨h1, _⟩ := satisfy_some hsd
      subst h1
      refine ⟨?_, ?_⟩
      · obtain ⟨nd, a, b⟩ := hroot
        exact ⟨_, linkAt_get a, b⟩
      · intro i nd hi' hz
        obtain ⟨y, hy, rfl⟩ := linkAt_inv hi'
        exact hn i y hy hz
    | place d hpre hsd hsrc hrr =>
      obtain ⟨nd, t, hnn, ht, h1, _, _⟩ := placeChild_eq hi hpre hsd hrr
      obtain ⟨hname, hpk, _, _, _, hreq⟩ := nodeNew_spec hnn
      have hq : Q d.name d.spec := by
        obtain ⟨x, k1, k2, _⟩ := id hpre
        by_cases hz : d.node = 0
        · obtain ⟨rd, a, b⟩ := hroot
          rw [hz, a] at k1; cases k1
          rw [b] at k2
          exact h0 _ _ _ k2
        · obtain ⟨sp, m, a, b, c⟩ := hn _ _ k1 hz
          obtain ⟨raw, hin, hpa⟩ := mkReqs_from c k2
          exact hc _ _ _ _ _ _ _ a b (by simpa using hin) hpa
      rw [h1]
      refine ⟨?_, ?_⟩
      · obtain ⟨rd, a, b⟩ := hroot
        exact ⟨placeUpd g d t 0 rd, (placeAt_old g d nd t (lt_of_get a)).trans (by rw [a]; rfl), b⟩
      · intro i x hi' hz
        rcases placeAt_cases _ d nd t hpre.lt ht.lt hi' with ⟨_, y, hy, rfl⟩ | ⟨rfl, rfl⟩
        · exact hn i y hy hz
        · rcases hsrc with ⟨hf, _⟩ | ⟨l, ent, hl, _⟩
          · refine ⟨d.spec, _, ?_, ?_, hreq⟩
            · show Q nd.name d.spec
              rw [hname]; exact hq
            · show env.fetch d.spec = some (nd.pkg, _)
              rw [hpk]; exact hf
          · cases hl

end Oro
