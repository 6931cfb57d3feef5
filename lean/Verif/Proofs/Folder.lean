import Verif.Spec.Hoisted
import Verif.Proofs.AtPath
set_option linter.unusedSectionVars false
namespace Oro
namespace Hoisted
variable {P S V I : Type} [DecidableEq V] [DecidableEq I] [DecidableEq S]

/-! ### folders -/

theorem folder_cons (n : Str) (π : List Str) : folder (n :: π) = nmWord :: (nameSegs n ++ folder π) := by
  simp [folder]

theorem folder_append (π ρ : List Str) : folder (π ++ ρ) = folder π ++ folder ρ := by
  simp [folder]

theorem segs_inj {n m : Str} (hn : FolderName n) (hm : FolderName m) {x y : List Str}
    (h : nameSegs n ++ x = nameSegs m ++ y) : n = m ∧ x = y := by
  rcases hn with ⟨h1, h2, h3, h4, h5⟩ | ⟨s, t, rfl, hs, ht, ht2, ht3⟩ <;>
  rcases hm with ⟨g1, g2, g3, g4, g5⟩ | ⟨s', t', rfl, hs', ht', ht2', ht3'⟩
  · rw [nameSegs_plain h1, nameSegs_plain g1] at h
    simpa using h
  · rw [nameSegs_plain h1, nameSegs_scoped hs' ht'] at h
    simp only [List.cons_append, List.nil_append, List.cons.injEq] at h
    exact absurd (by rw [h.1]; rfl) h5
  · rw [nameSegs_scoped hs ht, nameSegs_plain g1] at h
    simp only [List.cons_append, List.nil_append, List.cons.injEq] at h
    exact absurd (by rw [← h.1]; rfl) g5
  · rw [nameSegs_scoped hs ht, nameSegs_scoped hs' ht'] at h
    simp only [List.cons_append, List.nil_append, List.cons.injEq, true_and] at h
    obtain ⟨rfl, rfl, rfl⟩ := h
    exact ⟨rfl, rfl⟩

theorem segs_head_ne_nm {n : Str} (hn : FolderName n) (x : List Str) : (nameSegs n ++ x).head? ≠ some nmWord := by
  rcases hn with ⟨h1, h2, h3, h4, h5⟩ | ⟨s, t, rfl, hs, ht, ht2, ht3⟩
  · rw [nameSegs_plain h1]; simpa using h3
  · rw [nameSegs_scoped hs ht]; simp [nmWord]

/-- a location's folder determines the location, and what comes after it -/
theorem folder_inj : ∀ {π ρ : List Str} {x y : List Str}, (∀ n ∈ π, FolderName n) → (∀ n ∈ ρ, FolderName n) →
    folder π ++ x = folder ρ ++ y → x.head? ≠ some nmWord → y.head? ≠ some nmWord → π = ρ ∧ x = y := by
  intro π
  induction π with
  | nil =>
    intro ρ x y _ hρ h hx hy
    cases ρ with
    | nil => exact ⟨rfl, h⟩
    | cons m ρ =>
      rw [folder_cons] at h
      simp only [folder, List.flatMap_nil, List.nil_append, List.cons_append] at h
      rw [h] at hx; simp at hx
  | cons n π ih =>
    intro ρ x y hπ hρ h hx hy
    cases ρ with
    | nil =>
      rw [folder_cons] at h
      simp only [folder, List.flatMap_nil, List.nil_append, List.cons_append] at h
      rw [← h] at hy; simp at hy
    | cons m ρ =>
      rw [folder_cons, folder_cons] at h
      simp only [List.cons_append, List.cons.injEq, true_and, List.append_assoc] at h
      obtain ⟨rfl, h2⟩ := segs_inj (hπ n (by simp)) (hρ m (by simp)) h
      obtain ⟨rfl, rfl⟩ := ih (fun k hk => hπ k (by simp [hk])) (fun k hk => hρ k (by simp [hk])) h2 hx hy
      exact ⟨rfl, rfl⟩

/-- a folder inside another belongs to a location inside the other's -/
theorem folder_prefix : ∀ {π ρ : List Str} {y : List Str}, (∀ n ∈ π, FolderName n) → (∀ n ∈ ρ, FolderName n) →
    folder π ++ y = folder ρ → ∃ σ, ρ = π ++ σ ∧ y = folder σ := by
  intro π
  induction π with
  | nil => intro ρ y _ _ h; exact ⟨ρ, rfl, by simpa [folder] using h⟩
  | cons n π ih =>
    intro ρ y hπ hρ h
    cases ρ with
    | nil => rw [folder_cons] at h; simp [folder] at h
    | cons m ρ =>
      rw [folder_cons, folder_cons] at h
      simp only [List.cons_append, List.cons.injEq, true_and, List.append_assoc] at h
      obtain ⟨rfl, h2⟩ := segs_inj (hπ n (by simp)) (hρ m (by simp)) h
      obtain ⟨σ, rfl, rfl⟩ := ih (fun k hk => hπ k (by simp [hk])) (fun k hk => hρ k (by simp [hk])) h2
      exact ⟨σ, rfl, rfl⟩

theorem splitChar_append (a b : Str) :
    PSpec.splitChar '/' (a ++ '/' :: b) = PSpec.splitChar '/' a ++ PSpec.splitChar '/' b := by
  induction a with
  | nil => simp [PSpec.splitChar]
  | cons x a ih =>
    rw [List.cons_append, PSpec.splitChar, PSpec.splitChar]
    by_cases hx : x = '/'
    · rw [if_pos hx, if_pos hx, ih]; rfl
    · rw [if_neg hx, if_neg hx, ih]
      cases hs : PSpec.splitChar '/' a with
      | nil =>
        exfalso
        clear * - hs
        cases a with
        | nil => simp [PSpec.splitChar] at hs
        | cons y a =>
          rw [PSpec.splitChar] at hs
          split at hs
          · cases hs
          · split at hs <;> cases hs
      | cons h t => rfl

theorem splitChar_joinPath (n : Str) (π : List Str) :
    nmWord :: PSpec.splitChar '/' (joinPath (n :: π)) = folder (n :: π) := by
  induction π generalizing n with
  | nil => simp [joinPath, folder, nameSegs]
  | cons m π ih =>
    rw [joinPath, folder_cons, ← ih m]
    have : n ++ nmSep ++ joinPath (m :: π) = n ++ '/' :: (nmWord ++ '/' :: joinPath (m :: π)) := by
      simp [nmSep]
    rw [this, splitChar_append, splitChar_append, splitChar_one nmWord_noslash]
    rfl

theorem ord_of {pk : Pkgs P} {g : Graph Str P S} (hg : Installable pk g) : g.Ord := by
  intro i nd p hi hp
  exact hg.order i nd p hi hp

theorem target_folder {g : Graph Str P S} (hf : FolderTree g) (ho : g.Ord) {i : Nat} {π : List Str} (h0 : i ≠ 0)
    (hl : LocatedAt g i π) : nmWord :: targetDir g i = folder π := by
  have h1 := ((locatedAt_iff hf ho).1 hl).2
  unfold targetDir
  rw [h1]
  cases π with
  | nil => exact absurd (locatedAt_nil hl) h0
  | cons n π => exact splitChar_joinPath n π

theorem located_names {pk : Pkgs P} {g : Graph Str P S} (hg : Installable pk g) {i : Nat} {π : List Str}
    (hl : LocatedAt g i π) : ∀ n ∈ π, FolderName n := by
  induction hl with
  | root => simp
  | @inside i p π nd hi hp _ ih =>
    have h0 := (child_of_parent hg.tree hi hp).1
    intro n hn
    rcases List.mem_append.1 hn with h | h
    · exact ih n h
    · simp only [List.mem_singleton] at h
      rw [h]; exact (hg.names i nd h0 hi).1

theorem located_exists {g : Graph Str P S} {i : Nat} {π : List Str} (hl : LocatedAt g i π) : ∃ nd, g.nodes[i]? = some nd := by
  cases hl with
  | root h => exact ⟨_, h⟩
  | inside h _ _ => exact ⟨_, h⟩

/-- the package enclosing a package at a given level -/
theorem located_prefix {g : Graph Str P S} {j : Nat} {ρ : List Str} (hl : LocatedAt g j ρ) :
    ∀ π σ, ρ = π ++ σ → ∃ i, LocatedAt g i π ∧ Within g j i := by
  induction hl with
  | root h =>
    intro π σ hs
    have hs' := List.append_eq_nil_iff.1 hs.symm
    obtain ⟨rfl, rfl⟩ := hs'
    exact ⟨0, .root h, .refl h⟩
  | @inside i p ρ nd hi hp hlp ih =>
    intro π σ hs
    rcases List.eq_nil_or_concat σ with rfl | ⟨σ', x, rfl⟩
    · rw [List.append_nil] at hs
      exact ⟨i, hs ▸ .inside hi hp hlp, .refl hi⟩
    · rw [List.concat_eq_append, ← List.append_assoc] at hs
      obtain ⟨rfl, _⟩ := List.append_inj' hs rfl
      obtain ⟨k, hk1, hk2⟩ := ih π σ' rfl
      exact ⟨k, hk1, .up hi hp hk2⟩

/-- a folder inside another one belongs to a package with a larger index -/
theorem le_of_folder_prefix {pk : Pkgs P} {g : Graph Str P S} (hg : Installable pk g) {i j : Nat} {π ρ : List Str}
    (hi : LocatedAt g i π) (hj : LocatedAt g j ρ) (h : folder π <+: folder ρ) : i ≤ j := by
  obtain ⟨y, hy⟩ := h
  obtain ⟨σ, rfl, _⟩ := folder_prefix (located_names hg hi) (located_names hg hj) hy
  obtain ⟨k, hk1, hk2⟩ := located_prefix hj π σ rfl
  have := locatedAt_inj hg.tree hk1 hi
  subst this
  exact Graph.within_le (ord_of hg) hk2

theorem content_head {pk : Pkgs P} {g : Graph Str P S} (hg : Installable pk g) {i : Nat} {nd : Node Str P S}
    (h0 : i ≠ 0) (hi : g.nodes[i]? = some nd) {r : List Str} {e : Entry} (h : pk.content nd.pkg r = some e) : r.head? ≠ some nmWord := by
  cases r with
  | nil => simp
  | cons x r =>
    intro hx
    simp only [List.head?_cons, Option.some.injEq] at hx
    subst hx
    rw [hg.bundled i nd r h0 hi] at h
    cases h

/-- an entry of a package that lies on the way to another package is the package's own folder -/
theorem content_on_way {pk : Pkgs P} {g : Graph Str P S} (hg : Installable pk g) {i j : Nat} {nd : Node Str P S}
    {π ρ : List Str} (h0 : i ≠ 0) (hi : g.nodes[i]? = some nd) (hl : LocatedAt g i π) (hj : LocatedAt g j ρ) {r : List Str} {e : Entry}
    (h : pk.content nd.pkg r = some e) (hp : folder π ++ r <+: folder ρ) : r = [] ∧ e = .dir := by
  obtain ⟨y, hy⟩ := hp
  rw [List.append_assoc] at hy
  obtain ⟨σ, rfl, h2⟩ := folder_prefix (located_names hg hl) (located_names hg hj) hy
  have hr : r = [] := by
    cases r with
    | nil => rfl
    | cons x r =>
      exfalso
      cases σ with
      | nil => simp [folder] at h2
      | cons m σ =>
        rw [folder_cons] at h2
        simp only [List.cons_append, List.cons.injEq] at h2
        exact content_head hg h0 hi h (by rw [h2.1]; rfl)
  subst hr
  rw [hg.dirs i nd h0 hi] at h
  cases h
  exact ⟨rfl, rfl⟩

theorem same_place {pk : Pkgs P} {g : Graph Str P S} (hg : Installable pk g) {i j : Nat} {nd nd' : Node Str P S}
    {π ρ : List Str} (i0 : i ≠ 0) (j0 : j ≠ 0) (hi : g.nodes[i]? = some nd) (hj : g.nodes[j]? = some nd') (hl : LocatedAt g i π)
    (hl' : LocatedAt g j ρ) {r r' : List Str} {e e' : Entry} (h : pk.content nd.pkg r = some e)
    (h' : pk.content nd'.pkg r' = some e') (hp : folder π ++ r = folder ρ ++ r') : i = j ∧ r = r' := by
  obtain ⟨rfl, rfl⟩ := folder_inj (located_names hg hl) (located_names hg hl') hp (content_head hg i0 hi h) (content_head hg j0 hj h')
  exact ⟨locatedAt_inj hg.tree hl hl', rfl⟩

/-! ### extracting -/

theorem below_eq_some {d p r : Loc} : below d p = some r ↔ p = d ++ r := by
  unfold below
  split
  · rename_i h
    rw [List.isPrefixOf_iff_prefix] at h
    obtain ⟨y, rfl⟩ := h
    simp [eq_comm]
  · rename_i h
    constructor
    · intro h; cases h
    · rintro rfl
      exact absurd (by rw [List.isPrefixOf_iff_prefix]; exact List.prefix_append _ _) h

theorem below_eq_none {d p : Loc} : below d p = none ↔ ¬ d <+: p := by
  unfold below
  rw [← List.isPrefixOf_iff_prefix]
  split <;> simp_all

/-- what package `i` puts at `p` -/
def Puts (pk : Pkgs P) (g : Graph Str P S) (i : Nat) (p : Loc) (e : Entry) : Prop :=
  ∃ nd π r, g.nodes[i]? = some nd ∧ LocatedAt g i π ∧ nmWord :: p = folder π ++ r ∧ pk.content nd.pkg r = some e

/-- `p` is on the way to package `i` -/
def OnWay (g : Graph Str P S) (i : Nat) (p : Loc) : Prop := ∃ π, LocatedAt g i π ∧ nmWord :: p <+: folder π

/-- the top-level package that `i` is in has this property -/
def Top (g : Graph Str P S) (hot : Str → Prop) (i : Nat) : Prop := i ≠ 0 ∧ ∃ n ρ, LocatedAt g i (n :: ρ) ∧ hot n

/-- what is known about the tree extraction starts from -/
structure Base (pk : Pkgs P) (g : Graph Str P S) (hot : Str → Prop) (T0 : Tree) : Prop where
  inst : Installable pk g
  root : T0 [] = some .dir
  clean : ∀ n, hot n → ∀ x, T0 (nameSegs n ++ x) = none
  way : ∀ n, hot n → ∀ q e, q <+: nameSegs n → T0 q = some e → e = .dir
  cold : ∀ i nd, i ≠ 0 → g.nodes[i]? = some nd → ¬ Top g hot i → T0 (targetDir g i) ≠ none

/-- the state after the packages before `k` -/
structure At (pk : Pkgs P) (g : Graph Str P S) (hot : Str → Prop) (T0 : Tree) (k : Nat) (x : Ext) : Prop where
  tree : ∀ p e, x.tree p = some e ↔ T0 p = some e ∨
    (∃ i, i < k ∧ Top g hot i ∧ (Puts pk g i p e ∨ (e = .dir ∧ T0 p = none ∧ OnWay g i p)))
  pending : ∀ i, i ∈ x.pending ↔ i < k ∧ Top g hot i ∧
    ∃ nd, g.nodes[i]? = some nd ∧ (pk.scripts nd.pkg = true ∨ pk.bins nd.pkg ≠ [])
  count : (∀ i, i < k → ¬ Top g hot i) → x.count = 0

theorem extract_step {pk : Pkgs P} {g : Graph Str P S} {hot : Str → Prop} {T0 : Tree} (hb : Base pk g hot T0) {k : Nat}
    {x : Ext} (hk : k < g.nodes.length) (h : At pk g hot T0 k x) :
    ∃ y, extractNode pk g x k = some y ∧ At pk g hot T0 (k + 1) y := by
  have hg := hb.inst
  have ho := ord_of hg
  have hn := List.getElem?_eq_getElem hk
  generalize g.nodes[k] = nd at hn
  have skip : ¬ Top g hot k → At pk g hot T0 (k + 1) x := by
    intro hc
    have hlt : ∀ i, i < k + 1 ∧ Top g hot i ↔ i < k ∧ Top g hot i := by
      intro i
      constructor
      · rintro ⟨h1, h2⟩
        refine ⟨?_, h2⟩
        rcases Nat.lt_succ_iff_lt_or_eq.1 h1 with h1 | rfl
        · exact h1
        · exact absurd h2 hc
      · rintro ⟨h1, h2⟩; exact ⟨by omega, h2⟩
    refine ⟨?_, ?_, fun hx => h.count fun i hi => hx i (by omega)⟩
    · intro p e
      rw [h.tree p e]
      simp only [← and_assoc, hlt]
    · intro i
      rw [h.pending i]
      simp only [← and_assoc, hlt]
  unfold extractNode
  by_cases h0 : k = 0
  · rw [if_pos h0]; exact ⟨x, rfl, skip fun ht => ht.1 h0⟩
  · rw [if_neg h0, hn]
    simp only
    by_cases hhot : Top g hot k
    · obtain ⟨_, n, ρ, hl, hh⟩ := id hhot
      have htf := target_folder hg.tree ho h0 hl
      have hd : targetDir g k = nameSegs n ++ folder ρ := by
        rw [folder_cons] at htf; simpa using htf
      -- what is on the way is nothing or a folder
      have hway : ∀ q e, nmWord :: q <+: folder (n :: ρ) → nmWord :: q ≠ folder (n :: ρ) → x.tree q = some e → e = .dir := by
        intro q e hq hne he
        rcases (h.tree q e).1 he with hT | ⟨i, hi, hti, hput | ⟨h1, _, _⟩⟩
        · rw [folder_cons] at hq
          have hq' : q <+: nameSegs n ++ folder ρ := by
            obtain ⟨y, hy⟩ := hq
            simp only [List.cons_append, List.cons.injEq, true_and] at hy
            exact ⟨y, hy⟩
          rcases List.prefix_or_prefix_of_prefix hq' (List.prefix_append (nameSegs n) (folder ρ)) with h1 | ⟨y, rfl⟩
          · exact hb.way n hh q e h1 hT
          · rw [hb.clean n hh y] at hT; cases hT
        · obtain ⟨nd', π', r, hi', hl', hp', hc'⟩ := hput
          rw [hp'] at hq
          exact (content_on_way hg hti.1 hi' hl' hl hc' hq).2
        · exact h1
      have hfree : x.tree (targetDir g k) = none := by
        cases hx : x.tree (targetDir g k) with
        | none => rfl
        | some e =>
          exfalso
          rcases (h.tree _ e).1 hx with hT | ⟨i, hi, hti, hput | ⟨_, _, ⟨π', hl', hpre⟩⟩⟩
          · rw [hd, hb.clean n hh] at hT; cases hT
          · obtain ⟨nd', π', r, hi', hl', hp', hc'⟩ := hput
            rw [htf] at hp'
            have := same_place hg h0 hti.1 hn hi' hl hl' (r := []) (hg.dirs k nd h0 hn) hc' (by simpa using hp')
            omega
          · rw [htf] at hpre
            have := le_of_folder_prefix hg hl hl' hpre
            omega
      rw [if_neg (by simp [hfree])]
      have hnb : blocked x.tree (targetDir g k) = false := by
        unfold blocked
        rw [List.any_eq_false]
        intro j hj
        rw [List.mem_range] at hj
        cases hx : x.tree ((targetDir g k).take j) with
        | none => simp
        | some e =>
          have := hway ((targetDir g k).take j) e
            (by rw [← htf]; exact ⟨(targetDir g k).drop j, by simp⟩)
            (by
              rw [← htf]
              intro h
              have := congrArg List.length h
              simp at this
              omega) hx
          simp [this]
      have hun : unpack (pk.content nd.pkg) x.tree (targetDir g k) = some (fun p =>
          match (below (targetDir g k) p).bind (pk.content nd.pkg) with
          | some e => some e
          | none => dirsAbove x.tree (targetDir g k) p) := by
        unfold unpack
        rw [hnb]
        rfl
      rw [hun]
      refine ⟨_, rfl, ?_, ?_, ?_⟩
      · intro p e
        simp only
        -- the content of package k at p
        have hcont : ∀ e', (below (targetDir g k) p).bind (pk.content nd.pkg) = some e' ↔ Puts pk g k p e' := by
          intro e'
          rw [Option.bind_eq_some_iff]
          constructor
          · rintro ⟨r, h1, h2⟩
            rw [below_eq_some] at h1
            exact ⟨nd, _, r, hn, hl, by rw [h1, ← List.cons_append, htf], h2⟩
          · rintro ⟨nd', π', r, h1, h2, h3, h4⟩
            rw [hn] at h1; cases h1
            have hpp := ((locatedAt_iff hg.tree ho).1 hl).2.symm.trans ((locatedAt_iff hg.tree ho).1 h2).2
            subst hpp
            refine ⟨r, below_eq_some.2 ?_, h4⟩
            rw [← htf] at h3
            simpa using h3
        constructor
        · intro he
          cases hx : (below (targetDir g k) p).bind (pk.content nd.pkg) with
          | some e' =>
            rw [hx] at he
            cases he
            exact .inr ⟨k, by omega, hhot, .inl ((hcont e).1 hx)⟩
          | none =>
            rw [hx] at he
            simp only [dirsAbove] at he
            split at he
            · rename_i hc
              cases he
              simp only [ne_eq, decide_not, Bool.and_eq_true, Bool.not_eq_true', decide_eq_false_iff_not,
                List.isPrefixOf_iff_prefix, Option.isNone_iff_eq_none] at hc
              right
              refine ⟨k, by omega, hhot, .inr ⟨rfl, ?_, _, hl, ?_⟩⟩
              · cases hT : T0 p with
                | none => rfl
                | some e' =>
                  have := (h.tree p e').2 (.inl hT)
                  rw [hc.2] at this; cases this
              · rw [← htf]
                obtain ⟨y, hy⟩ := hc.1.1
                exact ⟨y, by rw [← hy]; rfl⟩
            · rcases (h.tree p e).1 he with hT | ⟨i, hi, hr⟩
              · exact .inl hT
              · exact .inr ⟨i, by omega, hr⟩
        · -- old entries stay
          have old : ∀ e', x.tree p = some e' → (below (targetDir g k) p).bind (pk.content nd.pkg) = none →
              dirsAbove x.tree (targetDir g k) p = some e' := by
            intro e' h1 _
            simp [dirsAbove, h1]
          rintro (hT | ⟨i, hi, hti, hput | ⟨rfl, hT, hw⟩⟩)
          · have hnone : (below (targetDir g k) p).bind (pk.content nd.pkg) = none := by
              cases hx : (below (targetDir g k) p).bind (pk.content nd.pkg) with
              | none => rfl
              | some e' =>
                obtain ⟨r, h1, _⟩ := Option.bind_eq_some_iff.1 hx
                rw [below_eq_some, hd, List.append_assoc] at h1
                rw [h1, hb.clean n hh] at hT; cases hT
            rw [hnone]
            exact old e ((h.tree p e).2 (.inl hT)) hnone
          · rcases Nat.lt_succ_iff_lt_or_eq.1 hi with hi | rfl
            · have hnone : (below (targetDir g k) p).bind (pk.content nd.pkg) = none := by
                cases hx : (below (targetDir g k) p).bind (pk.content nd.pkg) with
                | none => rfl
                | some e' =>
                  exfalso
                  obtain ⟨nd1, π1, r1, a1, a2, a3, a4⟩ := (hcont e').1 hx
                  obtain ⟨nd2, π2, r2, b1, b2, b3, b4⟩ := hput
                  have := (same_place hg h0 hti.1 a1 b1 a2 b2 a4 b4 (a3.symm.trans b3)).1
                  omega
              rw [hnone]
              exact old e ((h.tree p e).2 (.inr ⟨i, hi, hti, .inl hput⟩)) hnone
            · rw [(hcont e).2 hput]
          · obtain ⟨π', hl', hpre⟩ := hw
            rcases Nat.lt_succ_iff_lt_or_eq.1 hi with hi | rfl
            · have hnone : (below (targetDir g k) p).bind (pk.content nd.pkg) = none := by
                cases hx : (below (targetDir g k) p).bind (pk.content nd.pkg) with
                | none => rfl
                | some e' =>
                  exfalso
                  obtain ⟨nd1, π1, r1, a1, a2, a3, a4⟩ := (hcont e').1 hx
                  rw [a3] at hpre
                  have := le_of_folder_prefix hg a2 hl' ((List.prefix_append _ _).trans hpre)
                  omega
              rw [hnone]
              exact old _ ((h.tree p .dir).2 (.inr ⟨i, hi, hti, .inr ⟨rfl, hT, π', hl', hpre⟩⟩)) hnone
            · have hpp := ((locatedAt_iff hg.tree ho).1 hl').2.symm.trans ((locatedAt_iff hg.tree ho).1 hl).2
              subst hpp
              by_cases hpd : p = targetDir g i
              · subst hpd
                have : (below (targetDir g i) (targetDir g i)).bind (pk.content nd.pkg) = some .dir := by
                  rw [(below_eq_some (r := [])).2 (by simp)]
                  exact hg.dirs i nd h0 hn
                rw [this]
              · rw [← htf] at hpre
                have hpre' : p <+: targetDir g i := by
                  obtain ⟨y, hy⟩ := hpre
                  simp only [List.cons_append, List.cons.injEq, true_and] at hy
                  exact ⟨y, hy⟩
                have hnone : below (targetDir g i) p = none := by
                  rw [below_eq_none]
                  intro h2
                  exact hpd (hpre'.eq_of_length_le h2.length_le)
                rw [hnone]
                simp only [Option.bind_none, dirsAbove]
                cases hx : x.tree p with
                | none => simp [List.isPrefixOf_iff_prefix, hpre', hpd]
                | some e' =>
                  have := hway p e' (by rw [← htf]; exact hpre) (by
                    rw [← htf]; intro h; simp only [List.cons.injEq, true_and] at h; exact hpd h) hx
                  simp [this]
      · intro i
        by_cases hs : (pk.scripts nd.pkg || !(pk.bins nd.pkg).isEmpty) = true
        · simp only [hs, if_true, List.mem_append, List.mem_singleton, h.pending i]
          constructor
          · rintro (⟨h1, h2⟩ | rfl)
            · exact ⟨by omega, h2⟩
            · exact ⟨by omega, hhot, nd, hn, by simpa using hs⟩
          · rintro ⟨h1, h2⟩
            rcases Nat.lt_succ_iff_lt_or_eq.1 h1 with h1 | h1
            · exact .inl ⟨h1, h2⟩
            · exact .inr h1
        · simp only [hs, Bool.false_eq_true, if_false, h.pending i]
          constructor
          · rintro ⟨h1, h2⟩; exact ⟨by omega, h2⟩
          · rintro ⟨h1, h2, nd', h3, h4⟩
            rcases Nat.lt_succ_iff_lt_or_eq.1 h1 with h1 | rfl
            · exact ⟨h1, h2, nd', h3, h4⟩
            · rw [hn] at h3; cases h3
              exact absurd (by simpa using h4) hs
      · intro hc
        exact absurd hhot (hc k (by omega))
    · rw [if_pos]
      · exact ⟨x, rfl, skip hhot⟩
      · have := hb.cold k nd h0 hn hhot
        cases hx : T0 (targetDir g k) with
        | none => exact absurd hx this
        | some e => rw [(h.tree _ e).2 (.inl hx)]; simp

theorem extract_all {pk : Pkgs P} {g : Graph Str P S} {hot : Str → Prop} {T0 : Tree} (hb : Base pk g hot T0) :
    ∃ y, extractAll pk g T0 = some y ∧ At pk g hot T0 g.nodes.length y := by
  unfold extractAll
  have hT : (fun p => if p = [] then some Entry.dir else T0 p) = T0 := by
    funext p
    split
    · rename_i h; rw [h, hb.root]
    · rfl
  rw [hT]
  have : ∀ k, k ≤ g.nodes.length → ∃ y, (List.range k).foldl (fun x i => x.bind fun x => extractNode pk g x i)
      (some ⟨T0, [], 0⟩) = some y ∧ At pk g hot T0 k y := by
    intro k
    induction k with
    | zero =>
      intro _
      refine ⟨_, rfl, ?_, ?_, fun _ => rfl⟩
      · intro p e; simp
      · intro i; simp
    | succ k ih =>
      intro hk
      obtain ⟨y, h1, h2⟩ := ih (by omega)
      obtain ⟨z, h3, h4⟩ := extract_step hb (by omega) h2
      refine ⟨z, ?_, h4⟩
      rw [List.range_succ, List.foldl_append, h1]
      simpa using h3
  exact this _ (Nat.le_refl _)

end Hoisted
end Oro
