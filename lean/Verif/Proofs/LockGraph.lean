import Verif.Proofs.LockPath
/- `to_lockfile` on trees produced by the resolver. -/

set_option linter.unusedSectionVars false

namespace Oro
open Graph

theorem IMap.mem_ofList {K W : Type} [DecidableEq K] {l : List (K × W)} {p : K × W} (h : p ∈ IMap.ofList l) : p ∈ l := by
  unfold IMap.ofList at h
  suffices ∀ m : IMap K W, p ∈ l.foldl (fun m kv => m.insert kv.1 kv.2) m → p ∈ m ∨ p ∈ l by
    rcases this [] h with h | h
    · simp at h
    · exact h
  clear h
  induction l with
  | nil => intro m h; exact Or.inl h
  | cons a l ih =>
    intro m h
    rcases ih _ h with h | h
    · rcases IMap.mem_insert h with rfl | h
      · exact Or.inr (by simp)
      · exact Or.inl h
    · exact Or.inr (List.mem_cons_of_mem _ h)

section
variable {N P S : Type} [DecidableEq N] [DecidableEq S] {env : Env N P S} {lock : Option (LockTree N P)}
  {root : Node N P S}

theorem Node.new_deps {parse : N → Str → Option S} {n : N} {p : P} {m : Manifest N} {b : Bool} {nd : Node N P S}
    (h : Node.new parse n p m b = some nd) : nd.deps = [] := by
  unfold Node.new at h
  cases hm : mkReqs parse m b with
  | none => rw [hm] at h; cases h
  | some r => rw [hm] at h; cases h; rfl

/-- the link table of every package is a map -/
theorem RReach.deps_wf (hr : IsRoot env root) {s : RState N P S} (h : RReach env lock root s) :
    ∀ (i : Nat) (nd : Node N P S), s.graph.nodes[i]? = some nd → nd.deps.WF := by
  refine RReach.graph_ind (I := fun g => ∀ (i : Nat) (nd : Node N P S), g.nodes[i]? = some nd → nd.deps.WF) hr ?_ ?_ h
  · intro i nd hi
    obtain ⟨n, p, m, hn⟩ := hr
    cases i with
    | zero => simp at hi; subst hi; rw [Node.new_deps hn]; exact IMap.wf_nil
    | succ i => simp at hi
  · intro g g' hg hI hs
    cases hs with
    | link d hp hsd =>
      obtain ⟨rfl, _⟩ := satisfy_some hsd
      intro i nd hi
      rw [linkAt_nodes] at hi
      cases hy : g.nodes[i]? with
      | none => rw [hy] at hi; cases hi
      | some y =>
        rw [hy] at hi; cases hi
        simp only [linkUpd]
        split
        · exact IMap.wf_insert (hI i y hy) _ _
        · exact hI i y hy
    | place d hp hsd hsrc hpl =>
      obtain ⟨nd, t, hn, ht, h1, _, _⟩ := placeChild_eq hg hp hsd hpl
      rw [h1]
      intro i x hi
      have hd : d.node < g.nodes.length := by obtain ⟨y, hy, _⟩ := hp; exact lt_of_get hy
      rcases placeAt_cases g d nd t hd ht.lt hi with ⟨_, y, hy, rfl⟩ | ⟨_, rfl⟩
      · simp only [placeUpd]
        split
        · exact IMap.wf_insert (hI i y hy) _ _
        · exact hI i y hy
      · simp only [Node.new_deps hn]; exact IMap.wf_nil

theorem nodePath_names {g : Graph N P S} {i : Nat} {n : N} (h : n ∈ g.nodePath i) :
    ∃ j nd, j ≠ 0 ∧ g.nodes[j]? = some nd ∧ nd.name = n := by
  unfold nodePath at h
  obtain ⟨j, hj, hn⟩ := List.mem_filterMap.mp h
  rw [List.mem_reverse] at hj
  have h0 : decide (j ≠ 0) = true := by
    clear hn h
    generalize g.ancestors i = l at hj
    induction l with
    | nil => simp at hj
    | cons a l ih =>
      rw [List.takeWhile_cons] at hj
      split at hj
      · rename_i ha
        rcases List.mem_cons.mp hj with rfl | hj
        · exact ha
        · exact ih hj
      · simp at hj
  cases hx : g.nodes[j]? with
  | none => rw [hx] at hn; cases hn
  | some nd => rw [hx] at hn; exact ⟨j, nd, by simpa using h0, hx, by simpa using hn⟩

end

section
variable {P S V I : Type} [DecidableEq S] {v : LockView P S V I} {g : Graph Str P S}

theorem lockNode_wf {i : Nat} {b : Bool} {n : LNode V I} (h : lockNode v g i b = some n) : n.WF := by
  unfold lockNode at h
  cases hx : g.nodes[i]? with
  | none => rw [hx] at h; cases h
  | some nd =>
    rw [hx] at h; cases h
    intro ty
    cases ty <;> exact IMap.wf_ofList _

theorem lockNode_path {i : Nat} {b : Bool} {n : LNode V I} (h : lockNode v g i b = some n) :
    n.path = g.nodePath i ∧ n.isRoot = b ∧ n.resolved.isSome = true := by
  unfold lockNode at h
  cases hx : g.nodes[i]? with
  | none => rw [hx] at h; cases h
  | some nd => rw [hx] at h; cases h; exact ⟨rfl, rfl, rfl⟩

theorem toLockfile_entry {l : Lockfile V I} (h : toLockfile v g = some l) {p : Str × LNode V I}
    (hp : p ∈ l.packages) : ∃ i, i ≠ 0 ∧ i < g.nodes.length ∧ lockNode v g i false = some p.2 ∧ p.1 = joinPath p.2.path := by
  unfold toLockfile at h
  cases hx : lockNode v g 0 true with
  | none => rw [hx] at h; cases h
  | some r =>
    rw [hx] at h; cases h
    obtain ⟨i, hi, hn⟩ := List.mem_filterMap.mp (IMap.mem_ofList hp)
    simp only [ne_eq, decide_not, List.mem_filter, List.mem_range, Bool.not_eq_true', decide_eq_false_iff_not] at hi
    cases hy : lockNode v g i false with
    | none => rw [hy] at hn; cases hn
    | some n => rw [hy] at hn; cases hn; exact ⟨i, hi.2, hi.1, hy, rfl⟩

theorem toLockfile_root {l : Lockfile V I} (h : toLockfile v g = some l) :
    lockNode v g 0 true = some l.root ∧ l.version = 1 ∧ l.packages.WF := by
  unfold toLockfile at h
  cases hx : lockNode v g 0 true with
  | none => rw [hx] at h; cases h
  | some r => rw [hx] at h; cases h; exact ⟨rfl, rfl, IMap.wf_ofList _⟩

theorem toLockfile_wf {l : Lockfile V I} (h : toLockfile v g = some l) : l.WF where
  root := lockNode_wf (toLockfile_root h).1
  keys := (toLockfile_root h).2.2
  nodes := fun _ hp => by obtain ⟨i, _, _, hn, _⟩ := toLockfile_entry h hp; exact lockNode_wf hn

theorem nodePath_ne_nil (hf : FolderTree g) (ho : g.Ord) {i : Nat} (hi : i < g.nodes.length) (h0 : i ≠ 0) :
    g.nodePath i ≠ [] := by
  have hn := List.getElem?_eq_getElem hi
  obtain ⟨p, _, hp, _, _⟩ := hf.listed i _ hn h0
  rw [nodePath_inside ho hn hp]; simp

theorem toLockfile_proper (hf : FolderTree g) (ho : g.Ord) {l : Lockfile V I} (h : toLockfile v g = some l) :
    l.Proper where
  wf := toLockfile_wf h
  isRoot := (lockNode_path (toLockfile_root h).1).2.1
  version := by rw [(toLockfile_root h).2.1]; decide
  entries := by
    intro p hp
    obtain ⟨i, h0, hi, hn, hk⟩ := toLockfile_entry h hp
    have := lockNode_path hn
    exact ⟨this.2.1, by rw [this.1]; exact nodePath_ne_nil hf ho hi h0, hk⟩

theorem toLockfile_isSome (hf : FolderTree g) (v : LockView P S V I) : ∃ l, toLockfile v g = some l := by
  obtain ⟨nd, hn, _⟩ := hf.root
  simp [toLockfile, lockNode, hn]

/-- with proper names no entry is lost -/
theorem toLockfile_packages (hf : FolderTree g) (ho : g.Ord)
    (hv : ∀ i nd, i ≠ 0 → g.nodes[i]? = some nd → ValidName nd.name) {l : Lockfile V I} (h : toLockfile v g = some l) :
    l.packages = ((List.range g.nodes.length).filter (· ≠ 0)).filterMap fun i =>
        (lockNode v g i false).map fun n => (joinPath n.path, n) := by
  unfold toLockfile at h
  cases hx : lockNode v g 0 true with
  | none => rw [hx] at h; cases h
  | some r =>
    rw [hx] at h; cases h
    refine IMap.ofList_nodup ?_
    unfold IMap.WF IMap.keys
    have hfm : ∀ l : List Nat, (∀ i ∈ l, i < g.nodes.length) →
        (l.filterMap fun i => (lockNode v g i false).map fun n => (joinPath n.path, n)).map Prod.fst
        = l.map fun i => joinPath (g.nodePath i) := by
      intro l hl
      induction l with
      | nil => rfl
      | cons i l ih =>
        have hn := List.getElem?_eq_getElem (hl i (by simp))
        simp only [List.filterMap_cons, lockNode, hn, Option.map_some, List.map_cons, ← ih (fun j hj => hl j (List.mem_cons_of_mem _ hj))]
    rw [hfm _ (fun i hi => by simpa using (List.mem_filter.mp hi).1)]
    refine List.Nodup.map_on ?_ (List.Nodup.filter _ List.nodup_range)
    intro i hi j hj hij
    simp only [ne_eq, decide_not, List.mem_filter, List.mem_range, Bool.not_eq_true', decide_eq_false_iff_not] at hi hj
    have hval : ∀ k, ∀ n ∈ g.nodePath k, ValidName n := by
      intro k n hn
      obtain ⟨j, nd, h0, hj, rfl⟩ := nodePath_names hn
      exact hv j nd h0 hj
    have := joinPath_inj (hval i) (hval j) (nodePath_ne_nil hf ho hi.1 hi.2) (nodePath_ne_nil hf ho hj.1 hj.2) hij
    exact locatedAt_inj hf ((locatedAt_iff hf ho).mpr ⟨⟨_, List.getElem?_eq_getElem hi.1⟩, rfl⟩)
      ((locatedAt_iff hf ho).mpr ⟨⟨_, List.getElem?_eq_getElem hj.1⟩, this.symm⟩)

theorem linkGroup_get? {nd : Node Str P S} (hw : nd.deps.WF) (ty : DepType) (m raw : Str) :
    (linkGroup v g nd ty).get? m = some raw ↔
      ∃ k e, nd.deps.get? m = some k ∧ g.edges[k]? = some e ∧ e.ty = ty ∧ v.reqStr e.spec = raw := by
  unfold linkGroup
  have hsub : ∀ l : IMap Str Nat, ((l.filterMap (linkEntry v g ty)).map Prod.fst).Sublist (l.map Prod.fst) := by
    intro l
    induction l with
    | nil => exact .refl _
    | cons a l ih =>
      simp only [List.filterMap_cons, List.map_cons]
      cases he : linkEntry v g ty a with
      | none => exact ih.cons _
      | some e =>
        have : e.1 = a.1 := by
          unfold linkEntry at he
          split at he
          · split at he <;> cases he
            rfl
          · cases he
        simp only [List.map_cons, this]
        exact ih.cons_cons _
  have hwf : IMap.WF (nd.deps.filterMap (linkEntry v g ty)) := (hsub nd.deps).nodup hw
  rw [IMap.ofList_nodup hwf, IMap.get?_some_iff_mem hwf, List.mem_filterMap]
  constructor
  · rintro ⟨⟨a, k⟩, hm, hs⟩
    unfold linkEntry at hs
    cases he : g.edges[k]? with
    | none => simp only [he] at hs; cases hs
    | some e =>
      simp only [he] at hs
      split at hs
      · rename_i ht
        simp only [Option.some.injEq, Prod.mk.injEq] at hs
        exact ⟨k, e, hs.1 ▸ IMap.get?_of_mem hw hm, he, ht, hs.2⟩
      · cases hs
  · rintro ⟨k, e, hk, he, ht, hraw⟩
    exact ⟨(m, k), IMap.mem_of_get? hk, by simp [linkEntry, he, ht, hraw]⟩

end
end Oro
