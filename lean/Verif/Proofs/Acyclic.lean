import Verif.Spec.Acyclic
import Verif.Proofs.Bound
/- Registries without cycles: the tree is not larger than the unfolded requirements. -/

set_option linter.unusedSectionVars false

namespace Oro
variable {N P S : Type} [DecidableEq N] [DecidableEq S]
open Graph

theorem IMap.insert_length {K V : Type} [DecidableEq K] (mp : IMap K V) (k : K) (v : V) : (mp.insert k v).length ≤ mp.length + 1 := by
  induction mp with
  | nil => simp [IMap.insert]
  | cons a l ih =>
    obtain ⟨k', v'⟩ := a
    simp only [IMap.insert]
    split
    · simp
    · simp only [List.length_cons]; omega

theorem reqFold_length {parse : N → Str → Option S} (l : List ((N × Str) × DepType)) :
    ∀ {acc r : IMap N (S × DepType)}, reqFold parse (some acc) l = some r → r.length ≤ acc.length + l.length := by
  induction l with
  | nil => intro acc r h; simp only [reqFold, List.foldl_nil, Option.some.injEq] at h; subst h; simp
  | cons d l ih =>
    intro acc r h
    simp only [reqFold, List.foldl_cons] at h
    cases hp : parse d.1.1 d.1.2 with
    | none => rw [hp] at h; rw [show l.foldl _ none = reqFold parse none l from rfl, reqFold_none] at h; cases h
    | some spec =>
      rw [hp] at h
      have := ih h
      have h2 := IMap.insert_length acc d.1.1 (spec, d.2)
      simp only [List.length_cons]
      omega

theorem mkReqs_length {parse : N → Str → Option S} {m : Manifest N} {b : Bool} {r : IMap N (S × DepType)} (h : mkReqs parse m b = some r) :
    r.length ≤ m.deps.length + m.optDeps.length + (if b then m.devDeps.length else 0) := by
  have := reqFold_length _ (acc := []) h
  simp only [List.length_append, List.length_map, List.length_nil, Nat.zero_add] at this
  cases b <;> simpa using this

theorem reqFold_from {parse : N → Str → Option S} (l : List ((N × Str) × DepType)) :
    ∀ {acc r : IMap N (S × DepType)}, reqFold parse (some acc) l = some r → ∀ n x, r.get? n = some x →
      acc.get? n = some x ∨ ∃ d ∈ l, d.1.1 = n ∧ parse n d.1.2 = some x.1 := by
  induction l with
  | nil => intro acc r h n x hx; simp only [reqFold, List.foldl_nil, Option.some.injEq] at h; subst h; exact .inl hx
  | cons d l ih =>
    intro acc r h n x hx
    simp only [reqFold, List.foldl_cons] at h
    cases hp : parse d.1.1 d.1.2 with
    | none => rw [hp] at h; rw [show l.foldl _ none = reqFold parse none l from rfl, reqFold_none] at h; cases h
    | some spec =>
      rw [hp] at h
      rcases ih h n x hx with h1 | ⟨d', h1, h2⟩
      · rw [IMap.get?_insert] at h1
        split at h1
        · rename_i heq
          cases h1
          exact .inr ⟨d, by simp, heq.symm, by rw [heq]; exact hp⟩
        · exact .inl h1
      · exact .inr ⟨d', List.mem_cons_of_mem _ h1, h2⟩

theorem mkReqs_from {parse : N → Str → Option S} {m : Manifest N} {b : Bool} {r : IMap N (S × DepType)} (h : mkReqs parse m b = some r)
    {n : N} {spec : S} {ty : DepType} (hx : r.get? n = some (spec, ty)) :
    ∃ raw, (n, raw) ∈ m.deps ++ m.optDeps ++ (if b then m.devDeps else []) ∧ parse n raw = some spec := by
  rcases reqFold_from _ (acc := []) h n _ hx with h1 | ⟨⟨⟨n', raw⟩, ty'⟩, h1, h2, h3⟩
  · cases h1
  · dsimp only at h2 h3
    subst h2
    refine ⟨raw, ?_, h3⟩
    simp only [List.mem_append, List.mem_map, Prod.mk.injEq] at h1 ⊢
    rcases h1 with (⟨x, hx, rfl, _⟩ | ⟨x, hx, rfl, _⟩) | h1
    · exact .inl (.inl hx)
    · exact .inl (.inr hx)
    · cases b with
      | false => simp at h1
      | true =>
        simp only [if_true, List.mem_map, Prod.mk.injEq] at h1
        obtain ⟨x, hx, rfl, _⟩ := h1
        exact .inr hx

/-! ### requirements that are still open -/

def openReqs (nd : Node N P S) : Nat := (nd.reqs.filter fun r => (nd.deps.get? r.1).isNone).length

theorem filter_le {α : Type} {p q : α → Bool} (h : ∀ x, p x = true → q x = true) (l : List α) : (l.filter p).length ≤ (l.filter q).length := by
  induction l with
  | nil => simp
  | cons x l ih =>
    simp only [List.filter_cons]
    cases hp : p x with
    | true => simp [h x hp, ih]
    | false =>
      cases hq : q x with
      | true => simp; omega
      | false => simpa using ih

theorem filter_lt {α : Type} {p q : α → Bool} (h : ∀ x, p x = true → q x = true) {l : List α} {a : α} (ha : a ∈ l) (hp : p a = false)
    (hq : q a = true) : (l.filter p).length + 1 ≤ (l.filter q).length := by
  induction l with
  | nil => cases ha
  | cons x l ih =>
    simp only [List.filter_cons]
    rcases List.mem_cons.1 ha with rfl | ha
    · have := filter_le h l
      simp [hp, hq]; omega
    · have := ih ha
      cases hpx : p x with
      | true => simp [h x hpx]; omega
      | false =>
        cases hqx : q x with
        | true => simp; omega
        | false => simpa using this

theorem openReqs_link {nd : Node N P S} {n : N} {x : S × DepType} {k : Nat} (h1 : nd.reqs.get? n = some x) (h2 : nd.deps.get? n = none) :
    openReqs { nd with deps := nd.deps.insert n k } + 1 ≤ openReqs nd := by
  unfold openReqs
  refine filter_lt ?_ (IMap.mem_of_get? h1) ?_ ?_
  · intro r hr
    dsimp only at hr
    rw [IMap.get?_insert] at hr
    split at hr
    · cases hr
    · exact hr
  · dsimp only; rw [IMap.get?_insert, if_pos rfl]; rfl
  · dsimp only; rw [h2]; rfl

theorem sum_modify {α : Type} (f : α → Nat) (u : α → α) : ∀ (l : List α) (i : Nat) (x : α), l[i]? = some x →
    ((l.modify i u).map f).sum + f x = (l.map f).sum + f (u x) := by
  intro l
  induction l with
  | nil => intro i x h; cases h
  | cons a l ih =>
    intro i x h
    cases i with
    | zero =>
      simp only [List.getElem?_cons_zero, Option.some.injEq] at h
      subst h
      simp [List.modify]
      omega
    | succ i =>
      have := ih i x (by simpa using h)
      simp only [List.modify_succ_cons, List.map_cons, List.sum_cons]
      omega

section
variable {env : Env N P S} {lock : Option (LockTree N P)} {m : Manifest N} {rank : P → Nat} {depth width : Nat}

/-- rank of a place in the tree: the project (which has no parent) is above all -/
def placeRank (rank : P → Nat) (depth : Nat) (nd : Node N P S) : Nat := if nd.parent.isNone then depth else rank nd.pkg

/-- packages that can still come from this one, itself included -/
def future (rank : P → Nat) (depth width : Nat) (nd : Node N P S) : Nat :=
  1 + openReqs nd * treeSize width (placeRank rank depth nd)

theorem treeSize_mono (w : Nat) {a b : Nat} (h : a ≤ b) : treeSize w a ≤ treeSize w b := by
  induction b generalizing a with
  | zero => have : a = 0 := by omega
            subst this; exact Nat.le_refl _
  | succ b ih =>
    cases a with
    | zero => simp [treeSize]
    | succ a =>
      simp only [treeSize]
      have := Nat.mul_le_mul_left w (ih (a := a) (by omega))
      omega

/-- what is known of every package in the tree -/
structure Ranked (env : Env N P S) (lock : Option (LockTree N P)) (m : Manifest N) (g : Graph N P S) : Prop where
  node : ∀ (i : Nat) (nd : Node N P S), i ≠ 0 → g.nodes[i]? = some nd → ∃ m', KnownPackage env lock nd.pkg m' ∧ mkReqs env.parse m' false = some nd.reqs
  root : ∀ nd, g.nodes[0]? = some nd → mkReqs env.parse m true = some nd.reqs

theorem source_offers {g : Graph N P S} {d : Dep N S} {p : P} {m' : Manifest N} {tp : Option (List N)} (h : Source env lock g d p m' tp) :
    Offers env lock d.spec p ∧ KnownPackage env lock p m' := by
  rcases h with ⟨h, _⟩ | ⟨l, ent, hl, h, rfl, _⟩
  · exact ⟨.inl ⟨m', h⟩, .inl ⟨_, h⟩⟩
  · obtain ⟨pre, _, _, h1, h2, h3, _⟩ := (lockWalk_iff _).1 h
    exact ⟨.inr ⟨l, _, ent, hl, h1, h2, h3⟩, .inr ⟨l, _, ent, hl, h1, h2, rfl⟩⟩

theorem Ranked.step {g g' : Graph N P S} (hac : Acyclic env lock m rank depth width) (hg : GInv env g) (h : Ranked env lock m g)
    (hs : GStep env lock g g') : Ranked env lock m g' ∧
      (g'.nodes.map (future rank depth width)).sum ≤ (g.nodes.map (future rank depth width)).sum := by
  cases hs with
  | @link d _ x hp hsd =>
    obtain ⟨rfl, _⟩ := satisfy_some hsd
    refine ⟨⟨?_, ?_⟩, ?_⟩
    · intro i z h0 hz
      obtain ⟨y, hy, rfl⟩ := linkAt_inv hz
      exact h.node i y h0 hy
    · intro z hz
      obtain ⟨y, hy, rfl⟩ := linkAt_inv hz
      exact h.root y hy
    · obtain ⟨nd, hn, hreq, hdep⟩ := hp
      have := sum_modify (future rank depth width) (fun nd => { nd with deps := nd.deps.insert d.name g.edges.length }) g.nodes d.node nd hn
      have hle : future rank depth width { nd with deps := nd.deps.insert d.name g.edges.length } ≤ future rank depth width nd := by
        unfold future placeRank
        have := openReqs_link (k := g.edges.length) hreq hdep
        have := Nat.mul_le_mul_right (treeSize width (if nd.parent.isNone then depth else rank nd.pkg)) (show openReqs
          { nd with deps := nd.deps.insert d.name g.edges.length } ≤ openReqs nd by omega)
        dsimp only
        omega
      show ((g.nodes.modify d.node _).map _).sum ≤ _
      omega
  | @place d p m' tp r hp hsd hsrc hpl =>
    obtain ⟨nn, t, hnew, ht, hgr, _, _⟩ := placeChild_eq hg hp hsd hpl
    obtain ⟨hoff, hknown⟩ := source_offers hsrc
    obtain ⟨n1, n2, n3, _, n5, n6⟩ := nodeNew_spec hnew
    have htl := within_exists ht.within
    obtain ⟨tn, htn⟩ := htl
    have htl := lt_of_get htn
    rw [hgr]
    refine ⟨⟨?_, ?_⟩, ?_⟩
    · intro i z h0 hz
      rcases placeAt_cases _ d nn t hp.lt htl hz with ⟨_, y, hy, rfl⟩ | ⟨rfl, rfl⟩
      · exact h.node i y h0 hy
      · exact ⟨m', by rw [n2]; exact hknown, n6⟩
    · intro z hz
      rcases placeAt_cases _ d nn t hp.lt htl hz with ⟨_, y, hy, rfl⟩ | ⟨h0, rfl⟩
      · exact h.root y hy
      · have := hp.lt; omega
    · obtain ⟨nd, hn, hreq, hdep⟩ := id hp
      -- the nodes afterwards
      have hmap : (placeAt g d nn t).nodes.map (future rank depth width) =
          (g.nodes.modify d.node fun nd => { nd with deps := nd.deps.insert d.name g.edges.length }).map (future rank depth width) ++
            [future rank depth width { nn with parent := some t }] := by
        apply List.ext_getElem?
        intro j
        by_cases hj : j < g.nodes.length
        · rw [List.getElem?_append_left (by simpa using hj), List.getElem?_map, List.getElem?_map, placeAt_old _ d nn t hj,
            List.getElem?_modify]
          cases g.nodes[j]? with
          | none => simp
          | some y =>
            simp only [Option.map_some]
            unfold placeUpd future openReqs placeRank
            by_cases hjd : d.node = j
            · subst hjd; simp
            · simp [hjd, Ne.symm hjd]
        · by_cases hj2 : j = g.nodes.length
          · subst hj2
            rw [List.getElem?_append_right (by simp), List.getElem?_map, placeAt_new _ d nn t hp.lt htl]
            simp
          · rw [List.getElem?_eq_none (by rw [List.length_map, placeAt_length]; omega),
              List.getElem?_eq_none (by simp; omega)]
      rw [hmap, List.sum_append, List.sum_singleton]
      have hsum := sum_modify (future rank depth width) (fun nd => { nd with deps := nd.deps.insert d.name g.edges.length }) g.nodes d.node nd hn
      -- the new package ranks lower
      have hrank : rank p < placeRank rank depth nd := by
        unfold placeRank
        by_cases h0 : d.node = 0
        · rw [h0] at hn
          obtain ⟨rn, hrn, hrp⟩ := hg.root
          rw [hn] at hrn; cases hrn
          rw [hrp]
          obtain ⟨raw, k1, k2⟩ := mkReqs_from (h.root nd hn) hreq
          simp only [if_true] at k1
          exact hac.project d.name raw d.spec p k1 k2 hoff
        · obtain ⟨q, _, hq, _⟩ := hg.par _ nd hn h0
          rw [hq]
          obtain ⟨m1, k0, k1⟩ := h.node _ nd h0 hn
          obtain ⟨raw, k2, k3⟩ := mkReqs_from k1 hreq
          simp only [Bool.false_eq_true, if_false, List.append_nil] at k2
          exact hac.package nd.pkg m1 d.name raw d.spec p k0 k2 k3 hoff
      have hnew : future rank depth width { nn with parent := some t } ≤ treeSize width (placeRank rank depth nd) := by
        obtain ⟨k, hk⟩ : ∃ k, placeRank rank depth nd = k + 1 := ⟨placeRank rank depth nd - 1, by omega⟩
        rw [hk, treeSize]
        unfold future
        have h1 : openReqs ({ nn with parent := some t } : Node N P S) ≤ width := by
          unfold openReqs
          refine Nat.le_trans (List.length_filter_le _ _) (Nat.le_trans (mkReqs_length n6) ?_)
          have := hac.width p m' hknown
          simpa using this
        have h2 : placeRank rank depth ({ nn with parent := some t } : Node N P S) ≤ k := by
          unfold placeRank
          dsimp only
          rw [n2]
          simp only [Option.isNone_some, Bool.false_eq_true, if_false]
          omega
        exact Nat.add_le_add_left (Nat.mul_le_mul h1 (treeSize_mono width h2)) 1
      have hold : future rank depth width { nd with deps := nd.deps.insert d.name g.edges.length } + treeSize width (placeRank rank depth nd) ≤
          future rank depth width nd := by
        have h1 := openReqs_link (k := g.edges.length) hreq hdep
        have h2 : placeRank rank depth { nd with deps := nd.deps.insert d.name g.edges.length } = placeRank rank depth nd := rfl
        unfold future
        rw [h2]
        have := Nat.mul_le_mul_right (treeSize width (placeRank rank depth nd)) h1
        rw [Nat.add_mul, Nat.one_mul] at this
        omega
      omega

end
end Oro
