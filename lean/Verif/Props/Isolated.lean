import Verif.Proofs.IsolatedBins
import Mathlib.Data.Fintype.EquivFin
import Mathlib.Data.Fintype.Pigeonhole
/-
C46 and C47: the isolated node_modules on disk.
-/
set_option linter.unusedSectionVars false
set_option linter.unusedSimpArgs false
set_option linter.unusedTactic false
set_option linter.unreachableTactic false
set_option linter.unnecessarySeqFocus false
namespace Oro
namespace Iso
open Hoisted (Entry Tree Pkgs Disk storeName binName wiped)
variable {P S V I : Type}

/-! ### C46: installing -/

/-- C46: the folders of two packages are different and neither is inside the other. -/
theorem C46_distinct (pk : Pkgs P) (v : Env) (g : Graph Str P S) (hg : Installable pk v g) (i j : Nat) (ni nj : Node Str P S)
    (i0 : i ≠ 0) (j0 : j ≠ 0) (hi : g.nodes[i]? = some ni) (hj : g.nodes[j]? = some nj) (hne : i ≠ j) :
    ¬ home v g i <+: home v g j :=
  fun h => hne (home_apart hg ⟨i0, ni, hi⟩ ⟨j0, nj, hj⟩ h List.prefix_rfl)

/-- C46: installing into a project without a readable meta file, the packages done in any order, gives exactly what
should be there, and no commands yet. -/
theorem C46_fresh (pk : Pkgs P) (v : Env) (g : Graph Str P S) (hg : Installable pk v g) (d : Disk V I) (hd : Fresh d)
    (order : List Nat) (ho : Order g order) : ∃ y, install pk v g order d = some y ∧ Exact pk v g y.tree := by
  obtain ⟨y, hy, hi⟩ := wiped_installed hg ho
  refine ⟨y, ?_, hi⟩
  rw [← hy]
  unfold install
  obtain ⟨hm, hn | hr⟩ := hd
  · unfold prune
    rw [if_pos (hn [])]
    unfold extractAll
    have e1 : put d.tree [] .dir = put wiped [] .dir := by
      funext p; unfold put wiped; split <;> [rfl; simp [hn p, *]]
    rw [if_neg (by rw [hn]; simp), if_neg (by simp [wiped]), e1]
  · unfold prune
    rw [if_neg (by rw [hr]; simp), if_pos (by rw [hm]; rfl)]

theorem update_exact (pk : Pkgs P) (v : Env) (g0 g : Graph Str P S) (h0 : Installable pk v g0) (hg : Installable pk v g)
    (hc : Compatible pk v g0 g) (d : Disk V I) (hd : Exact pk v g0 d.tree) (order : List Nat) (ho : Order g order) :
    ∃ y, install pk v g order d = some y ∧ Exact pk v g y.tree := by
  have hr : d.tree [] = some .dir := (hd _ _).2 (.inl ⟨rfl, rfl⟩)
  unfold install prune
  rw [if_neg (by rw [hr]; simp)]
  split
  · exact wiped_installed hg ho
  · exact pruned_installed h0 hg hc hd ho

/-- C46, for the changes the linker gets right: whatever tree was installed, with whatever commands, and whether or not its
meta file is readable, applying another gives exactly what should be there (commands apart). -/
theorem C46_update_partial (pk : Pkgs P) (v : Env) (g0 g : Graph Str P S) (h0 : Installable pk v g0) (hg : Installable pk v g)
    (hc : Compatible pk v g0 g) (d : Disk V I) (hd : Installed pk v g0 d.tree) (order : List Nat) (ho : Order g order) :
    ∃ y, install pk v g order d = some y ∧ Installed pk v g y.tree := by
  have hx := exact_strip h0 hd
  obtain ⟨y, hy, hi⟩ := update_exact pk v g0 g h0 hg hc ⟨strip d.tree, d.metaFile⟩ hx order ho
  rcases install_rel (d := d) (d' := ⟨strip d.tree, d.metaFile⟩) hg ho rfl (rel_strip _) (good_exact h0 (installed_of_exact hx)) with ⟨_, h⟩ | ⟨a, b, h1, h2, h3⟩
  · rw [hy] at h; cases h
  · rw [hy] at h2
    cases h2
    exact ⟨a, h1, installed_rel h3.1.1 (installed_of_exact hi)⟩

/-- a tree is compatible with itself -/
theorem compatible_self (pk : Pkgs P) (v : Env) (g : Graph Str P S) (hg : Installable pk v g) : Compatible pk v g g := by
  have hsrc : ∀ k i (nd nd' : Node Str P S), g.nodes[k]? = some nd → g.nodes[i]? = some nd' → nm v g k = nm v g i → k = i := by
    intro k i nd nd' hk hi h
    by_cases k0 : k = 0 <;> by_cases i0 : i = 0
    · rw [k0, i0]
    · rw [k0, nm_root, nm_pkg v g i0] at h; simp at h
    · rw [i0, nm_root, nm_pkg v g k0] at h; simp at h
    · rw [nm_pkg v g i0, nm_pkg v g k0] at h
      have := List.append_cancel_right h
      exact home_apart hg ⟨k0, nd, hk⟩ ⟨i0, nd', hi⟩ (by rw [this]) List.prefix_rfl
  refine ⟨?_, ?_, ?_, ?_⟩
  · intro k i nd nd' k0 i0 hk hi h
    have := home_apart hg ⟨k0, nd, hk⟩ ⟨i0, nd', hi⟩ (by rw [h]) List.prefix_rfl
    subst this
    rw [hk] at hi
    rw [Option.some.inj hi]
  · intro k i l nd nd' hk hi h hl
    have := hsrc k i nd nd' hk hi h
    subst this
    exact ⟨l, hl, rfl⟩
  · intro k i l j nd nd' s t t' hk hi h hl hj _ _
    have := hsrc k i nd nd' hk hi h
    subst this
    exact ⟨j, hj, rfl, rfl⟩
  · intro k nd k0 hk
    exact ⟨k, nd, k0, hk, fun s t h => ⟨t, h⟩⟩

/-- C46: applying the same tree again changes nothing (commands apart). -/
theorem C46_again (pk : Pkgs P) (v : Env) (g : Graph Str P S) (hg : Installable pk v g) (d : Disk V I) (hd : Installed pk v g d.tree)
    (order : List Nat) (ho : Order g order) : ∃ y, install pk v g order d = some y ∧ ∀ p, ¬ InBin p → y.tree p = d.tree p := by
  obtain ⟨y, hy, hi⟩ := C46_update_partial pk v g g hg hg (compatible_self pk v g hg) d hd order ho
  refine ⟨y, hy, fun p hp => ?_⟩
  cases h : d.tree p with
  | some e => exact (hi p hp e).2 ((hd p hp e).1 h)
  | none =>
    cases h' : y.tree p with
    | none => rfl
    | some e => rw [(hd p hp e).2 ((hi p hp e).1 h')] at h; cases h

/-- A project in which trees were applied one after the other, each a change the linker gets right, starting from nothing;
between two runs the commands and the meta file may have changed in any way. -/
inductive History (pk : Pkgs P) (v : Env) : Graph Str P S → Disk V I → Prop
  | first (g : Graph Str P S) (d : Disk V I) (order : List Nat) (y : Ext) (d' : Disk V I) : Installable pk v g → Fresh d → Order g order →
      install pk v g order d = some y → (∀ p, ¬ InBin p → d'.tree p = y.tree p) → History pk v g d'
  | next (g0 g : Graph Str P S) (d : Disk V I) (order : List Nat) (y : Ext) (d' : Disk V I) : History pk v g0 d → Installable pk v g →
      Compatible pk v g0 g → Order g order → install pk v g order d = some y → (∀ p, ¬ InBin p → d'.tree p = y.tree p) → History pk v g d'

/-- C46, over any history of such changes: the last tree is what is installed. -/
theorem C46_history_partial (pk : Pkgs P) (v : Env) (g : Graph Str P S) (d : Disk V I) (h : History pk v g d) :
    Installable pk v g ∧ Installed pk v g d.tree := by
  induction h with
  | first g d order y d' hg hd ho hy hc =>
    obtain ⟨z, hz, hi⟩ := C46_fresh pk v g hg d hd order ho
    rw [hy] at hz
    cases hz
    exact ⟨hg, installed_rel hc (installed_of_exact hi)⟩
  | next g0 g d order y d' _ hg hcomp ho hy hc ih =>
    obtain ⟨z, hz, hi⟩ := C46_update_partial pk v g0 g ih.1 hg hcomp d ih.2 order ho
    rw [hy] at hz
    cases hz
    exact ⟨hg, installed_rel hc hi⟩

theorem src_of {g : Graph Str P S} {i : Nat} {ni : Node Str P S} (hi : g.nodes[i]? = some ni) : Src g i := by
  by_cases h : i = 0
  · exact .inl h
  · exact .inr ⟨h, ni, hi⟩

/-- C46: each link leads to the folder of its package. -/
theorem C46_link_resolves (pk : Pkgs P) (v : Env) (g : Graph Str P S) (hg : Installable pk v g) (t : Tree) (ht : Installed pk v g t)
    (i j : Nat) (ni : Node Str P S) (hi : g.nodes[i]? = some ni) (hj : j ∈ depsOf g i) :
    leadsTo v t (entryFor v g i j) = some (home v g j) ∧ t (home v g j) = some .dir := by
  have hjp := dep_pkg hg hj
  obtain ⟨nj, hnj⟩ := hjp.2
  have hd : t (home v g j) = some .dir := by
    rw [ht _ (notBin_home hg hjp), expected_iff hg]
    exact .inr (.inl ⟨j, nj, hjp.1, hnj, .inr ⟨rfl, List.prefix_rfl⟩⟩)
  have hs : Src g i := src_of hi
  have hl : t (entryFor v g i j) = some (.link (diff (home v g j) (entryFor v g i j).dropLast)) := by
    rw [ht _ (notBin_entry hg hs hjp), expected_iff hg]
    exact .inr (.inr ⟨i, j, hs, hj, .inl ⟨rfl, rfl⟩⟩)
  refine ⟨?_, hd⟩
  unfold leadsTo
  rw [hl]
  dsimp only
  rw [resolve_diff hg hjp]
  simp [hd]

section
variable {pk : Pkgs P} {v : Env} {g : Graph Str P S} {t : Tree}

theorem none_at (hg : Installable pk v g) (ht : Exact pk v g t) {q : Loc} (hq : q ≠ []) (hs : q.head? = some storeName)
    (h1 : ∀ k, IsPkg g k → ¬ home v g k <+: q) (h2 : ∀ k, IsPkg g k → ¬ q <+: home v g k) : t q = none := by
  cases h : t q with
  | none => rfl
  | some e =>
    exfalso
    rw [ht, expected_iff hg] at h
    rcases h with ⟨h, _⟩ | ⟨k, nd, k0, kn, ⟨r, h, _⟩ | ⟨_, h⟩⟩ | ⟨k, l, hk, hl, h⟩
    · exact hq h
    · exact h1 k ⟨k0, nd, kn⟩ (by rw [h]; exact List.prefix_append _ _)
    · exact h2 k ⟨k0, nd, kn⟩ h
    · have hpe : q <+: entryFor v g k l := by
        rcases h with ⟨rfl, _⟩ | ⟨_, h⟩
        · exact List.prefix_rfl
        · exact h.trans (List.dropLast_prefix _)
      rcases hk with rfl | hk
      · exact root_entry_head hg (dep_pkg hg hl) hpe hs
      · rcases List.prefix_or_prefix_of_prefix hpe (home_entry v g (l := l) hk.1) with h | h
        · exact h2 k hk h
        · exact h1 k hk h

/-- what is in the folder of dependencies is declared -/
theorem declared_at (hg : Installable pk v g) (ht : Exact pk v g t) {i : Nat} (hi : Src g i) {n : Str} (hn : FolderName n) (hs : n ≠ storeName)
    (h : t (nm v g i ++ nameSegs n) ≠ none) : ∃ l ∈ depsOf g i, nameOf g l = n := by
  obtain ⟨e, h⟩ := Option.ne_none_iff_exists'.1 h
  have hne : nameSegs n ≠ [] ∧ (nameSegs n).head? ≠ some storeName := by
    rcases segs_form hn with ⟨c, h1, rfl, _⟩ | ⟨s, x, h1, _⟩
    · rw [nameSegs, h1]; simpa using hs
    · rw [nameSegs, h1]; simp [storeName]
  obtain ⟨k, l, hk, hl, hnm, hx⟩ := old_nm hg hg ht hi hne.1 hne.2 h
  have hki : k = i := by
    rcases hk with rfl | hk <;> rcases hi with rfl | hi
    · rfl
    · rw [nm_root, nm_pkg v g hi.1] at hnm; simp at hnm
    · rw [nm_root, nm_pkg v g hk.1] at hnm; simp at hnm
    · rw [nm_pkg v g hi.1, nm_pkg v g hk.1] at hnm
      exact home_apart hg hk hi (by rw [List.append_cancel_right hnm]) List.prefix_rfl
  subst hki
  refine ⟨l, hl, ?_⟩
  rcases hx with ⟨h, _⟩ | ⟨_, s, x, h, _⟩
  · exact (split_inj h).symm
  · exfalso
    rcases segs_form hn with ⟨c, h1, _, h3, _⟩ | ⟨s, x, h1, _⟩
    · rw [nameSegs, h1] at h
      simp only [List.cons.injEq, and_true] at h
      rw [h] at h3; exact h3 rfl
    · rw [nameSegs, h1] at h; simp at h

theorem leadsTo_none {p : Loc} (h : t p = none) : leadsTo v t p = none := by unfold leadsTo; rw [h]

/-- what the project finds -/
theorem root_finds (hg : Installable pk v g) (ht : Exact pk v g t) {n : Str} (hn : FolderName n) (hs : n ≠ storeName) :
    (∀ j ∈ depsOf g 0, nameOf g j = n → leadsTo v t (nameSegs n) = some (home v g j)) ∧
    ((∀ j ∈ depsOf g 0, nameOf g j ≠ n) → leadsTo v t (nameSegs n) = none) := by
  constructor
  · rintro j hj rfl
    obtain ⟨nd, h0, _⟩ := hg.tree.root
    exact (C46_link_resolves pk v g hg t (installed_of_exact ht) 0 j nd h0 hj).1
  · intro h
    apply leadsTo_none
    apply Classical.byContradiction
    intro hne
    obtain ⟨l, hl, hl'⟩ := declared_at hg ht (.inl rfl) hn hs (show t (nm v g 0 ++ nameSegs n) ≠ none from hne)
    exact h l hl hl'

theorem segs_prefix {n m : Str} (hn : FolderName n) (hm : FolderName m) (h : nameSegs n <+: nameSegs m) : n = m := by
  rcases segs_form hn with ⟨c, h1, h2, h3, _⟩ | ⟨s, x, h1, h2, _⟩ <;> rcases segs_form hm with ⟨c', k1, k2, k3, _⟩ | ⟨s', x', k1, k2, _⟩ <;>
    rw [nameSegs, h1, nameSegs, k1] at h
  · simp only [List.cons_prefix_cons] at h
    rw [← h2, ← k2, h.1]
  · simp only [List.cons_prefix_cons] at h
    rw [h.1] at h3
    exact absurd rfl h3
  · have := h.length_le; simp at this
  · simp only [List.cons_prefix_cons] at h
    rw [h2, k2, (List.cons.inj h.1).2, h.2.1]

/-- the folders Node looks in -/
theorem lookup_home (hg : Installable pk v g) {i : Nat} (hi : IsPkg g i) (hnm : nmWord ∉ nameSegs (nameOf g i)) (ht : Exact pk v g t) {n : Str} (hn : FolderName n) :
    finds v t (home v g i) n = (leadsTo v t (nm v g i ++ nameSegs n)).or
      ((if n = nameOf g i then some (home v g i) else none).or (leadsTo v t (nameSegs n))) := by
  have hstore : storeName ≠ nmWord := by decide
  have hat : ∀ s : Str, '@' :: s ≠ nmWord := by intro s; simp [nmWord]
  have hnp := (pkg_name hg hi).1
  have hnone : ∀ x : Loc, [storeName] <+: x → (∀ k, IsPkg g k → ¬ home v g k <+: x) → (∀ k, IsPkg g k → ¬ x <+: home v g k) → leadsTo v t x = none := by
    rintro x ⟨y, rfl⟩ h1 h2
    exact leadsTo_none (none_at hg ht (by simp) (by simp) h1 h2)
  have hstorenm : leadsTo v t (storeName :: nmWord :: nameSegs n) = none := by
    refine hnone _ ⟨_, rfl⟩ ?_ ?_ <;> intro k hk h <;>
      rcases store_form hg hk with ⟨b, hb, _, hbn, e2, _⟩ | ⟨s, x, y, _, _, e2, _⟩ <;>
      rw [e2] at h <;> simp only [List.cons_prefix_cons] at h
    · exact hbn h.2.1
    · exact hat _ h.2.1
    · exact hbn h.2.1.symm
    · exact hat _ h.2.1.symm
  obtain ⟨nd, hnd⟩ := hi.2
  have hhome : leadsTo v t (home v g i) = some (home v g i) := by
    have : t (home v g i) = some .dir := by
      rw [ht, expected_iff hg]
      exact .inr (.inl ⟨i, nd, hi.1, hnd, .inr ⟨rfl, List.prefix_rfl⟩⟩)
    unfold leadsTo
    rw [this]
  -- beside the package itself
  have hbeside : leadsTo v t (storeName :: (PSpec.splitChar '/' (dirName v g i) ++ nmWord :: nameSegs n)) = if n = nameOf g i then some (home v g i) else none := by
    split
    · rename_i h
      rw [h]; exact hhome
    · rename_i h
      obtain ⟨a, b, e1, e2, e3, _, e5⟩ := home_form hg hi
      refine hnone _ ⟨_, rfl⟩ ?_ ?_ <;> intro k hk hp <;> obtain ⟨a', b', f1, f2, f3, _, f5⟩ := home_form hg hk
      · have := home_form hg hk
        obtain ⟨r, hr⟩ := hp
        rw [f3, e2] at hr
        simp only [List.cons_append, List.append_assoc, List.cons.injEq, true_and, List.nil_append] at hr
        obtain ⟨ha, hb, hr2⟩ := append_single_inj f5 (at_ne_nm _ _) e5 (at_ne_nm _ _) hr
        have hki : k = i := dirName_inj hg hk hi (split_inj (by rw [f2, e2, ha, hb]))
        subst hki
        apply h
        refine (segs_prefix hnp hn ⟨r, ?_⟩).symm
        rw [nameSegs, f1, ← hr2]; simp
      · obtain ⟨r, hr⟩ := hp
        rw [f3, e2] at hr
        simp only [List.cons_append, List.append_assoc, List.cons.injEq, true_and, List.nil_append] at hr
        obtain ⟨ha, hb, hr2⟩ := append_single_inj e5 (at_ne_nm _ _) f5 (at_ne_nm _ _) hr
        have hki : k = i := dirName_inj hg hk hi (split_inj (by rw [f2, e2, ha, hb]))
        subst hki
        apply h
        refine segs_prefix hn hnp ⟨r, ?_⟩
        rw [hr2, nameSegs, f1]
  unfold finds lookupPath
  rcases store_form hg hi with ⟨b, hb, e1, hbn, e2, e3⟩ | ⟨s, x, y, e1, hy, e2, e3⟩
  · rw [e1] at hbeside
    have hself : nameOf g i ≠ nmWord := by rw [e3] at hnm; simpa using fun h => hnm (by simp [h])
    rw [nm_pkg v g hi.1]
    rw [e2] at hbeside ⊢
    have hin : [storeName, b, nmWord, nameOf g i].inits.reverse = [[storeName, b, nmWord, nameOf g i], [storeName, b, nmWord], [storeName, b], [storeName], []] := rfl
    rw [hin]
    simp only [List.filter_cons, List.filter_nil, List.getLast?_cons_cons, List.getLast?_singleton, Option.some.injEq, ne_eq, reduceCtorEq, not_false_eq_true, decide_true,
      hself, hbn, hstore, not_true_eq_false, decide_false, if_true, if_false, List.map_cons, List.map_nil, List.cons_append, List.nil_append, List.findSome?_cons,
      Bool.and_false, Bool.false_eq_true, Bool.and_true, Bool.false_and]
    simp only [List.cons_append, List.nil_append] at hbeside
    simp only [List.findSome?_nil, hbeside, hstorenm]
    generalize leadsTo v t (storeName :: b :: nmWord :: nameOf g i :: nmWord :: nameSegs n) = A
    generalize leadsTo v t (nameSegs n) = B
    by_cases h : n = nameOf g i
    · simp only [if_pos h]; cases A <;> cases B <;> rfl
    · simp only [if_neg h]; cases A <;> cases B <;> rfl
  · rw [e1] at hbeside
    have hself : x ≠ nmWord := by rw [e3] at hnm; simpa using fun h => hnm (by simp [h])
    have hup : leadsTo v t (storeName :: ('@' :: s) :: nmWord :: nameSegs n) = none := by
      refine hnone _ ⟨_, rfl⟩ ?_ ?_ <;> intro k hk h <;>
        rcases store_form hg hk with ⟨b, hb, _, hbn, f2, _⟩ | ⟨s', x', y', _, hy', f2, _⟩ <;>
        rw [f2] at h <;> simp only [List.cons_prefix_cons] at h
      · rw [h.2.1] at hb; exact hb rfl
      · exact hy' h.2.2.1
      · rw [← h.2.1] at hb; exact hb rfl
      · exact hy' h.2.2.1.symm
    have hdown : leadsTo v t (storeName :: ('@' :: s) :: y :: nmWord :: ('@' :: s) :: nmWord :: nameSegs n) = none := by
      refine hnone _ ⟨_, rfl⟩ ?_ ?_ <;> intro k hk h
      · rcases store_form hg hk with ⟨b, hb, _, hbn, f2, _⟩ | ⟨s', x', y', f1, hy', f2, f3⟩ <;>
          rw [f2] at h <;> simp only [List.cons_prefix_cons] at h
        · rw [h.2.1] at hb; exact hb rfl
        · have hki : k = i := dirName_inj hg hk hi (split_inj (by rw [f1, e1, h.2.1, h.2.2.1]))
          subst hki
          rw [f3] at hnm
          exact hnm (by simp [h.2.2.2.2.2.1])
      · have hl := h.length_le
        have hlen : 0 < (nameSegs n).length := by
          rcases segs_form hn with ⟨c, h1, _⟩ | ⟨s, x, h1, _⟩ <;> rw [nameSegs, h1] <;> simp
        rcases store_form hg hk with ⟨b, hb, _, hbn, f2, _⟩ | ⟨s', x', y', f1, hy', f2, f3⟩ <;> rw [f2] at hl <;> simp only [List.length_cons, List.length_nil] at hl <;> omega
    rw [nm_pkg v g hi.1]
    rw [e2] at hbeside ⊢
    have hin : [storeName, '@' :: s, y, nmWord, '@' :: s, x].inits.reverse = [[storeName, '@' :: s, y, nmWord, '@' :: s, x], [storeName, '@' :: s, y, nmWord, '@' :: s],
      [storeName, '@' :: s, y, nmWord], [storeName, '@' :: s, y], [storeName, '@' :: s], [storeName], []] := rfl
    rw [hin]
    simp only [List.filter_cons, List.filter_nil, List.getLast?_cons_cons, List.getLast?_singleton, Option.some.injEq, ne_eq, reduceCtorEq, not_false_eq_true, decide_true,
      hself, hy, hat, hstore, not_true_eq_false, decide_false, if_true, if_false, List.map_cons, List.map_nil, List.cons_append, List.nil_append, List.findSome?_cons,
      Bool.and_false, Bool.false_eq_true, Bool.and_true, Bool.false_and]
    simp only [List.cons_append, List.nil_append] at hbeside
    simp only [List.findSome?_nil, hbeside, hstorenm, hup, hdown]
    generalize leadsTo v t (storeName :: ('@' :: s) :: y :: nmWord :: ('@' :: s) :: x :: nmWord :: nameSegs n) = A
    generalize leadsTo v t (nameSegs n) = B
    by_cases h : n = nameOf g i
    · simp only [if_pos h]; cases A <;> cases B <;> rfl
    · simp only [if_neg h]; cases A <;> cases B <;> rfl

end

/-- what a package finds -/
theorem sees_exact (pk : Pkgs P) (v : Env) (g : Graph Str P S) (hg : Installable pk v g) (t : Tree) (ht : Exact pk v g t)
    (i : Nat) (ni : Node Str P S) (i0 : i ≠ 0) (hi : g.nodes[i]? = some ni) (hnm : nmWord ∉ nameSegs ni.name)
    (n : Str) (hn : FolderName n) (hs : n ≠ storeName) :
    (∀ j ∈ depsOf g i, nameOf g j = n → finds v t (home v g i) n = some (home v g j)) ∧
    ((∀ j ∈ depsOf g i, nameOf g j ≠ n) → n = ni.name → finds v t (home v g i) n = some (home v g i)) ∧
    ((∀ j ∈ depsOf g i, nameOf g j ≠ n) → n ≠ ni.name → ∀ j ∈ depsOf g 0, nameOf g j = n → finds v t (home v g i) n = some (home v g j)) ∧
    ((∀ j ∈ depsOf g i, nameOf g j ≠ n) → n ≠ ni.name → (∀ j ∈ depsOf g 0, nameOf g j ≠ n) → finds v t (home v g i) n = none) := by
  have hip : IsPkg g i := ⟨i0, ni, hi⟩
  have hname := nameOf_eq hi
  rw [lookup_home hg hip (by rw [hname]; exact hnm) ht hn]
  obtain ⟨hr1, hr2⟩ := root_finds hg ht hn hs
  have hown : (∀ j ∈ depsOf g i, nameOf g j ≠ n) → leadsTo v t (nm v g i ++ nameSegs n) = none := by
    intro h
    apply leadsTo_none
    apply Classical.byContradiction
    intro hne
    obtain ⟨l, hl, hl'⟩ := declared_at hg ht (.inr hip) hn hs hne
    exact h l hl hl'
  refine ⟨?_, ?_, ?_, ?_⟩
  · rintro j hj rfl
    have := (C46_link_resolves pk v g hg t (installed_of_exact ht) i j ni hi hj).1
    unfold entryFor at this
    rw [nameSegs, this]; rfl
  · intro h h1
    rw [hown h, hname, if_pos h1]; rfl
  · intro h h1 j hj hjn
    rw [hown h, hname, if_neg h1, hr1 j hj hjn]; rfl
  · intro h h1 h2
    rw [hown h, hname, if_neg h1, hr2 h2]; rfl

/-- what the project finds -/
theorem project_sees_exact (pk : Pkgs P) (v : Env) (g : Graph Str P S) (hg : Installable pk v g) (t : Tree) (ht : Exact pk v g t)
    (n : Str) (hn : FolderName n) (hs : n ≠ storeName) :
    (∀ j ∈ depsOf g 0, nameOf g j = n → finds v t [] n = some (home v g j)) ∧
    ((∀ j ∈ depsOf g 0, nameOf g j ≠ n) → finds v t [] n = none) := by
  have e : finds v t [] n = leadsTo v t (nameSegs n) := by
    unfold finds lookupPath
    simp [List.findSome?_cons]
    cases leadsTo v t (nameSegs n) <;> rfl
  rw [e]
  exact root_finds hg ht hn hs

theorem findSome?_congr' {α β : Type} {f f' : α → Option β} {l : List α} (h : ∀ x ∈ l, f x = f' x) : l.findSome? f = l.findSome? f' := by
  induction l with
  | nil => rfl
  | cons x l ih => rw [List.findSome?_cons, List.findSome?_cons, h x List.mem_cons_self, ih fun y hy => h y (List.mem_cons_of_mem _ hy)]

section
variable {pk : Pkgs P} {v : Env} {g : Graph Str P S} {t : Tree}

theorem nameSegs_head {n : Str} (hn : FolderName n) (hs : n ≠ storeName) (hb : n ≠ binName) :
    ∃ c r, nameSegs n = c :: r ∧ c ≠ storeName ∧ c ≠ binName ∧ c ≠ nmWord ∧ r.length ≤ 1 := by
  rcases segs_form hn with ⟨c, h1, rfl, _, h4, _⟩ | ⟨s, x, h1, _⟩
  · exact ⟨_, _, h1, hs, hb, h4, by simp⟩
  · exact ⟨_, _, h1, by simp [storeName], by simp [binName], by simp [nmWord], by simp⟩

theorem notBin_first {q : Loc} {c : Str} {r : Loc} (hq : nmWord ∉ q) (hr : r.length ≤ 1) : ¬ InBin (storeName :: (q ++ nmWord :: c :: r)) := by
  intro h
  generalize hp : storeName :: (q ++ nmWord :: c :: r) = p at h
  cases h with
  | project z => exact absurd (List.cons.inj hp).1 (by decide)
  | package a n z h1 h2 h3 =>
    have := (first_nm hq h1 (List.cons.inj hp).2).2
    have := congrArg List.length this
    simp at this
    omega
  | scope a s n z h1 =>
    have := (first_nm hq h1 (List.cons.inj hp).2).2
    have := congrArg List.length this
    simp at this
    omega

/-- where Node looks there are no commands -/
theorem lookup_notBin (hg : Installable pk v g) {i : Nat} (hi : IsPkg g i) {n : Str} (hn : FolderName n) (hs : n ≠ storeName) (hb : n ≠ binName)
    {p : Loc} (h : p ∈ lookupPath (home v g i) n) : ¬ InBin p := by
  obtain ⟨c, r, e, hc1, hc2, hc3, hr⟩ := nameSegs_head hn hs hb
  have hat : ∀ s : Str, nmWord ≠ '@' :: s := by intro s; simp [nmWord]
  unfold lookupPath at h
  rw [List.mem_append, List.mem_map, List.mem_singleton] at h
  rcases h with ⟨q, hq, rfl⟩ | rfl
  · rw [List.mem_filter, List.mem_reverse, List.mem_inits] at hq
    obtain ⟨hq, hq2⟩ := hq
    simp only [Bool.and_eq_true, decide_eq_true_eq] at hq2
    rw [e]
    by_cases hh : q = home v g i
    · rw [hh]
      have := notBin_nm (v := v) hg (.inr hi) hc2 hc1 r
      rwa [nm_pkg v g hi.1, List.append_assoc] at this
    · rcases store_form hg hi with ⟨b, hb', e1, hbn, e2, e3⟩ | ⟨s, t, x, e1, hx, e2, e3⟩
      · rw [e2] at hq hh
        rw [← List.mem_inits] at hq
        simp only [List.inits, List.map_cons, List.map_nil, List.mem_cons, List.not_mem_nil, or_false] at hq
        rcases hq with rfl | rfl | rfl | rfl | rfl
        · exact absurd rfl hq2.1
        · exact notBin_first (q := []) (by simp) hr
        · exact notBin_first (q := [b]) (by simpa using hbn.symm) hr
        · exact absurd rfl hq2.2
        · exact absurd rfl hh
      · rw [e2] at hq hh
        rw [← List.mem_inits] at hq
        simp only [List.inits, List.map_cons, List.map_nil, List.mem_cons, List.not_mem_nil, or_false] at hq
        have hu : nmWord ∉ ['@' :: s, x] := by
          simp only [List.mem_cons, List.not_mem_nil, or_false, not_or]
          exact ⟨hat s, hx.symm⟩
        rcases hq with rfl | rfl | rfl | rfl | rfl | rfl | rfl
        · exact absurd rfl hq2.1
        · exact notBin_first (q := []) (by simp) hr
        · exact notBin_first (q := ['@' :: s]) (by simpa using hat s) hr
        · exact notBin_first (q := ['@' :: s, x]) hu hr
        · exact absurd rfl hq2.2
        · intro h
          generalize hp : [storeName, '@' :: s, x, nmWord, '@' :: s] ++ nmWord :: c :: r = p at h
          cases h with
          | project z => exact absurd (List.cons.inj hp).1 (by decide)
          | package a n z h1 h2 h3 =>
            have := (first_nm (u := ['@' :: s, x]) hu h1 (List.cons.inj hp).2).2
            rw [← (List.cons.inj this).1] at h2
            exact h2 rfl
          | scope a s' n z h1 =>
            have := (first_nm (u := ['@' :: s, x]) hu h1 (List.cons.inj hp).2).2
            exact hc3 (List.cons.inj (List.cons.inj (List.cons.inj this).2).2).1
        · exact absurd rfl hh
  · rw [e, inBin_top r hc1]
    exact hc2

end

/-- C46: what a package finds under a name: the dependency it declares; if it declares none, itself if it is its own name,
else what the project declares under that name; else nothing. -/
theorem C46_sees (pk : Pkgs P) (v : Env) (g : Graph Str P S) (hg : Installable pk v g) (t : Tree) (ht : Installed pk v g t)
    (i : Nat) (ni : Node Str P S) (i0 : i ≠ 0) (hi : g.nodes[i]? = some ni) (hnm : nmWord ∉ nameSegs ni.name)
    (n : Str) (hn : FolderName n) (hs : n ≠ storeName) (hb : n ≠ binName) :
    (∀ j ∈ depsOf g i, nameOf g j = n → finds v t (home v g i) n = some (home v g j)) ∧
    ((∀ j ∈ depsOf g i, nameOf g j ≠ n) → n = ni.name → finds v t (home v g i) n = some (home v g i)) ∧
    ((∀ j ∈ depsOf g i, nameOf g j ≠ n) → n ≠ ni.name → ∀ j ∈ depsOf g 0, nameOf g j = n → finds v t (home v g i) n = some (home v g j)) ∧
    ((∀ j ∈ depsOf g i, nameOf g j ≠ n) → n ≠ ni.name → (∀ j ∈ depsOf g 0, nameOf g j ≠ n) → finds v t (home v g i) n = none) := by
  have hx := exact_strip hg ht
  have e : finds v t (home v g i) n = finds v (strip t) (home v g i) n :=
    findSome?_congr' fun p hp => leadsTo_rel (rel_strip t) (good_exact hg (installed_of_exact hx)) (lookup_notBin hg ⟨i0, ni, hi⟩ hn hs hb hp)
  rw [e]
  exact sees_exact pk v g hg _ hx i ni i0 hi hnm n hn hs

/-- C46: what the project itself finds: exactly its declared dependencies. -/
theorem C46_project_sees (pk : Pkgs P) (v : Env) (g : Graph Str P S) (hg : Installable pk v g) (t : Tree) (ht : Installed pk v g t)
    (n : Str) (hn : FolderName n) (hs : n ≠ storeName) (hb : n ≠ binName) :
    (∀ j ∈ depsOf g 0, nameOf g j = n → finds v t [] n = some (home v g j)) ∧
    ((∀ j ∈ depsOf g 0, nameOf g j ≠ n) → finds v t [] n = none) := by
  have hx := exact_strip hg ht
  have e : finds v t [] n = finds v (strip t) [] n := by
    refine findSome?_congr' fun p hp => leadsTo_rel (rel_strip t) (good_exact hg (installed_of_exact hx)) ?_
    obtain ⟨c, r, e, hc1, hc2, _⟩ := nameSegs_head hn hs hb
    unfold lookupPath at hp
    simp at hp
    rw [hp, e, inBin_top r hc1]
    exact hc2
  rw [e]
  exact project_sees_exact pk v g hg _ hx n hn hs

/-! ### C47: pruning -/

/-- a disk on which things are in folders -/
def Sane (d : Disk V I) : Prop := ∀ p r, r ≠ [] → d.tree (p ++ r) ≠ none → d.tree p = some .dir

/-- there is something to compare with -/
def Usable (d : Disk V I) : Prop := d.tree [] ≠ none ∧ d.metaFile ≠ none ∧ d.tree [storeName] ≠ none

section
variable {pk : Pkgs P} {v : Env} {g : Graph Str P S} {d : Disk V I}

theorem prune_usable (h : Usable d) : prune v g d = pruned v g d.tree := by
  obtain ⟨h1, h2, h3⟩ := h
  unfold prune
  rw [if_neg h1, if_neg]
  simp only [Bool.or_eq_true, decide_eq_true_eq, not_or]
  refine ⟨?_, h3⟩
  cases hm : d.metaFile with
  | none => exact absurd hm h2
  | some m => simp

theorem pruned_keeps {p : Loc} (h : ∀ q, q <+: p → removedDep v g d.tree q = false ∧ removedStore v g d.tree q = false) : pruned v g d.tree p = d.tree p := by
  cases hd : d.tree p with
  | some e => exact pruned_iff.2 ⟨hd, h⟩
  | none =>
    cases hp : pruned v g d.tree p with
    | none => rfl
    | some e => rw [(pruned_iff.1 hp).1] at hd; cases hd

theorem pruned_none {p q : Loc} (hq : q <+: p) (h : removedDep v g d.tree q = true ∨ removedStore v g d.tree q = true) : pruned v g d.tree p = none := by
  cases hp : pruned v g d.tree p with
  | none => rfl
  | some e =>
    obtain ⟨h1, h2⟩ := (pruned_iff.1 hp).2 q hq
    rw [h1, h2] at h
    simp at h

theorem pruned_of_none {p : Loc} (h : d.tree p = none) : pruned v g d.tree p = none := by
  cases hp : pruned v g d.tree p with
  | none => rfl
  | some e => rw [(pruned_iff.1 hp).1] at h; cases h

/-- nothing at a place of the store is removed as a dependency, unless it is one -/
theorem removedDep_home (hg : Installable pk v g) {i : Nat} (hi : IsPkg g i) {r q : Loc} (hr : r.head? ≠ some nmWord) (hq : q <+: home v g i ++ r) :
    removedDep v g d.tree q = false := by
  rw [Bool.eq_false_iff]
  intro h
  obtain ⟨i', j', hi', hj', h1, _⟩ := removedDep_iff.1 h
  subst h1
  have hne := entry_ne_nil (v := v) (i := i') hg (dep_pkg hg hj')
  rcases (src_lt hg).1 hi' with rfl | hi'
  · exact root_entry_head hg (dep_pkg hg hj') List.prefix_rfl (head_of_prefix hq hne rfl)
  · have := home_apart hg hi' hi ((home_entry v g hi'.1).trans hq) (List.prefix_append _ _)
    subst this
    unfold entryFor at hq
    rw [nm_pkg v g hi'.1, List.append_assoc, List.prefix_append_right_inj] at hq
    obtain ⟨x, rfl⟩ := hq
    exact hr rfl

theorem store_dirs (hs : Sane d) (hg : Installable pk v g) {i : Nat} (hi : IsPkg g i) {r : Loc} (h : d.tree (home v g i ++ r) ≠ none) :
    ∀ s, [storeName, '@' :: s] <+: home v g i → d.tree [storeName, '@' :: s] = some .dir := by
  rintro s ⟨y, hy⟩
  refine hs _ (y ++ r) ?_ (by rw [← List.append_assoc, hy]; exact h)
  intro h'
  have hy' := (List.append_eq_nil_iff.1 h').1
  subst hy'
  have := congrArg List.length hy
  rcases store_form hg hi with ⟨b, _, _, _, f, _⟩ | ⟨_, _, _, _, _, f, _⟩ <;> rw [f] at this <;> simp at this

end

/-- C47: pruning leaves the packages of the new tree as they are, their dependencies aside. -/
theorem C47_packages_kept (pk : Pkgs P) (v : Env) (g : Graph Str P S) (hg : Installable pk v g) (d : Disk V I) (hs : Sane d) (hu : Usable d)
    (i : Nat) (ni : Node Str P S) (i0 : i ≠ 0) (hi : g.nodes[i]? = some ni) (r : Loc) (hr : r.head? ≠ some nmWord) :
    prune v g d (home v g i ++ r) = d.tree (home v g i ++ r) := by
  rw [prune_usable hu]
  by_cases h : d.tree (home v g i ++ r) = none
  · rw [pruned_of_none h, h]
  · exact pruned_keeps fun q hq => ⟨removedDep_home hg ⟨i0, ni, hi⟩ hr hq,
      home_not_removedStore hg ⟨i0, ni, hi⟩ hq (store_dirs hs hg ⟨i0, ni, hi⟩ h)⟩

/-- C47: pruning removes everything from the store that is not in the folder of a package of the new tree, except the
folders of scopes. -/
theorem C47_others_removed (v : Env) (g : Graph Str P S) (d : Disk V I) (hs : Sane d) (hu : Usable d)
    (p : Loc) (hp : [storeName] <+: p) (hne : p ≠ [storeName])
    (hno : ∀ i nd, i ≠ 0 → g.nodes[i]? = some nd → ¬ storeName :: nameSegs (dirName v g i) <+: p)
    (hsc : ∀ s : Str, p ≠ [storeName, '@' :: s]) : prune v g d p = none := by
  rw [prune_usable hu]
  obtain ⟨y, rfl⟩ := hp
  have hexp : ∀ q, q <+: [storeName] ++ y → expected v g q = false := by
    intro q hq
    rw [Bool.eq_false_iff]
    intro h
    obtain ⟨i, ⟨i0, nd, hn⟩, h⟩ := expected_dir.1 h
    rw [h] at hq
    exact hno i nd i0 hn hq
  match y with
  | [] => exact absurd rfl hne
  | [s] =>
    refine pruned_none List.prefix_rfl (.inr ?_)
    have hx := hexp [storeName, s] List.prefix_rfl
    have hh : s.head? ≠ some '@' := by
      intro h
      cases s with
      | nil => cases h
      | cons c s => simp only [List.head?_cons, Option.some.injEq] at h; subst h; exact hsc s rfl
    simp [removedStore, hx, hh]
  | s :: s' :: y =>
    by_cases hd : d.tree [storeName, s] = some .dir
    · by_cases hh : s.head? = some '@'
      · refine pruned_none (q := [storeName, s, s']) ⟨y, rfl⟩ (.inr ?_)
        have hx := hexp [storeName, s] ⟨s' :: y, rfl⟩
        have hx' := hexp [storeName, s, s'] ⟨y, rfl⟩
        simp [removedStore, hx, hx', hd, hh]
      · refine pruned_none (q := [storeName, s]) ⟨s' :: y, rfl⟩ (.inr ?_)
        have hx := hexp [storeName, s] ⟨s' :: y, rfl⟩
        simp [removedStore, hx, hh]
    · refine pruned_of_none ?_
      apply Classical.byContradiction
      intro h
      exact hd (hs [storeName, s] (s' :: y) (by simp) h)

/-- C47 is false of the code for the folders of scopes: they stay, even if no package of the scope is left. -/
theorem C47_scope_folder_fails (pk : Pkgs P) (v : Env) (g : Graph Str P S) (hg : Installable pk v g) (d : Disk V I) (hu : Usable d)
    (s : Str) (h : d.tree [storeName, '@' :: s] = some .dir) : prune v g d [storeName, '@' :: s] = some .dir := by
  rw [prune_usable hu, ← h]
  refine pruned_keeps fun q hq => ⟨?_, ?_⟩
  · rw [Bool.eq_false_iff]
    intro h
    obtain ⟨i', j', hi', hj', h1, _⟩ := removedDep_iff.1 h
    subst h1
    have hne := entry_ne_nil (v := v) (i := i') hg (dep_pkg hg hj')
    rcases (src_lt hg).1 hi' with rfl | hi'
    · exact root_entry_head hg (dep_pkg hg hj') List.prefix_rfl (head_of_prefix hq hne rfl)
    · have := ((home_entry v g hi'.1).trans hq).length_le
      rcases store_form hg hi' with ⟨b, _, _, _, f, _⟩ | ⟨_, _, _, _, _, f, _⟩ <;> rw [f] at this <;> simp at this
  · match q with
    | [] => rfl
    | [_] => rfl
    | [c, e] =>
      simp only [List.cons_prefix_cons] at hq
      obtain ⟨rfl, rfl, _⟩ := hq
      simp [removedStore, h]
    | c :: e :: f :: q =>
      have := hq.length_le
      simp at this

/-- C47: of the entries for dependencies of the new tree without a scope, pruning keeps exactly the links whose text is the
absolute path of the dependency's folder. -/
theorem C47_links (pk : Pkgs P) (v : Env) (g : Graph Str P S) (hg : Installable pk v g) (d : Disk V I) (hs : Sane d) (hu : Usable d)
    (i j : Nat) (ni : Node Str P S) (hi : g.nodes[i]? = some ni) (hj : j ∈ depsOf g i) (h1 : (nameSegs (nameOf g j)).length = 1) :
    prune v g d (entryFor v g i j) =
      if d.tree (entryFor v g i j) = some (.link (v.top ++ home v g j)) then some (.link (v.top ++ home v g j)) else none := by
  rw [prune_usable hu]
  have hjp := dep_pkg hg hj
  have hsrc : Src g i := by
    by_cases h : i = 0
    · exact .inl h
    · exact .inr ⟨h, ni, hi⟩
  have hsame : ∀ i' j', i' < g.nodes.length → j' ∈ depsOf g i' → entryFor v g i' j' <+: entryFor v g i j → i' = i ∧ j' = j := by
    intro i' j' hi' hj' hp
    have hjp' := dep_pkg hg hj'
    have := zone hg ((src_lt hg).1 hi') hsrc hjp (segs_nonempty hg hjp') (segs_head' hg hjp') hp
    subst this
    refine ⟨rfl, ?_⟩
    by_cases he : entryFor v g i' j' = entryFor v g i' j
    · unfold entryFor at he
      exact name_dep hg hj' hj (split_inj (List.append_cancel_left he))
    · exact (entry_overlap hg hjp' hjp (prefix_dropLast hp he)).elim
  split
  · rename_i h
    rw [← h]
    refine pruned_keeps fun q hq => ⟨?_, ?_⟩
    · rw [Bool.eq_false_iff]
      intro hb
      obtain ⟨i', j', hi', hj', e, _, _, h3⟩ := removedDep_iff.1 hb
      subst e
      obtain ⟨rfl, rfl⟩ := hsame i' j' hi' hj' hq
      exact h3 h
    · rcases hsrc with rfl | hip
      · match q with
        | [] => rfl
        | [_] => rfl
        | [c, e] =>
          have : c ≠ storeName := by
            rintro rfl
            exact root_entry_head hg hjp hq rfl
          simp [removedStore, this]
        | [c, e, f] =>
          have : c ≠ storeName := by
            rintro rfl
            exact root_entry_head hg hjp hq rfl
          simp [removedStore, this]
        | c :: e :: f :: k :: q => rfl
      · have he : entryFor v g i j = home v g i ++ (nmWord :: PSpec.splitChar '/' (nameOf g j)) := by
          unfold entryFor; rw [nm_pkg v g hip.1]; simp
        rw [he] at hq
        exact home_not_removedStore hg hip hq (store_dirs hs hg hip (r := nmWord :: PSpec.splitChar '/' (nameOf g j)) (by rw [← he, h]; simp))
  · rename_i h
    by_cases hn : d.tree (entryFor v g i j) = none
    · exact pruned_of_none hn
    · exact pruned_none List.prefix_rfl (.inl (removedDep_iff.2 ⟨i, j, (src_lt hg).2 hsrc, hj, rfl, h1, hn, h⟩))

/-- C47 is false of the code: the links the linker makes, which are right, are removed (and made again each time). -/
theorem C47_right_removed_fails (pk : Pkgs P) (v : Env) (g : Graph Str P S) (hg : Installable pk v g) (d : Disk V I) (hs : Sane d) (hu : Usable d)
    (i j : Nat) (ni : Node Str P S) (hi : g.nodes[i]? = some ni) (hj : j ∈ depsOf g i) (h1 : (nameSegs (nameOf g j)).length = 1)
    (hl : d.tree (entryFor v g i j) = some (.link (diff (home v g j) (entryFor v g i j).dropLast))) :
    resolve v (entryFor v g i j).dropLast (diff (home v g j) (entryFor v g i j).dropLast) = some (home v g j) ∧
    prune v g d (entryFor v g i j) = none := by
  refine ⟨resolve_diff hg (dep_pkg hg hj) _, ?_⟩
  rw [C47_links pk v g hg d hs hu i j ni hi hj h1, if_neg]
  rw [hl]
  intro h
  exact diff_relative hg (dep_pkg hg hj) _ _ (Entry.link.inj (Option.some.inj h))

/-- C47 is false of the code: what the project no longer depends on stays in node_modules. -/
theorem C47_stale_fails (pk : Pkgs P) (v : Env) (g : Graph Str P S) (hg : Installable pk v g) (d : Disk V I) (hu : Usable d)
    (n : Str) (hn : n ≠ storeName) (hno : ∀ j ∈ depsOf g 0, nameOf g j ≠ n) (r : Loc) : prune v g d (n :: r) = d.tree (n :: r) := by
  rw [prune_usable hu]
  refine pruned_keeps fun q hq => ⟨?_, ?_⟩
  · rw [Bool.eq_false_iff]
    intro h
    obtain ⟨i', j', hi', hj', h1, h2, _⟩ := removedDep_iff.1 h
    subst h1
    rcases (src_lt hg).1 hi' with rfl | hi'
    · rcases segs_form (pkg_name hg (dep_pkg hg hj')).1 with ⟨c, f1, f2, _⟩ | ⟨s, x, f1, _⟩
      · unfold entryFor at hq
        rw [nm_root, f1] at hq
        simp only [List.nil_append, List.cons_prefix_cons] at hq
        exact hno j' hj' (by rw [← f2, hq.1])
      · rw [nameSegs, f1] at h2; simp at h2
    · have := head_of_home ((home_entry v g hi'.1).trans hq)
      simp only [List.head?_cons, Option.some.injEq] at this
      exact hn this
  · match q with
    | [] => rfl
    | [_] => rfl
    | [c, e] =>
      simp only [List.cons_prefix_cons] at hq
      simp [removedStore, hq.1, hn]
    | [c, e, f] =>
      simp only [List.cons_prefix_cons] at hq
      simp [removedStore, hq.1, hn]
    | c :: e :: f :: k :: q => rfl

/-- C47 is false of the code for scoped dependencies: whatever is at their place stays, right or wrong. -/
theorem C47_scoped_fails (pk : Pkgs P) (v : Env) (g : Graph Str P S) (hg : Installable pk v g) (d : Disk V I) (hu : Usable d)
    (s : Str) (hs : '/' ∉ s) (r : Loc) : prune v g d (('@' :: s) :: r) = d.tree (('@' :: s) :: r) := by
  refine C47_stale_fails pk v g hg d hu ('@' :: s) (by simp [storeName]) ?_ r
  intro j hj h
  have := (pkg_name hg (dep_pkg hg hj)).1
  rw [h] at this
  rcases this with ⟨_, _, _, _, h5⟩ | ⟨s', t, h', _⟩
  · exact h5 rfl
  · simp only [List.cons_append, List.cons.injEq, true_and] at h'
    exact hs (by rw [h']; simp)

/-! ### examples -/

namespace Ex
def sb : Str := ['@', 's', '/', 'b']
def sc : Str := ['@', 's', '/', 'c']
def pj : Str := ['p']
/-- root ⊃ a, @s/b, and both used by root, @s/b by a; `va`: what is in a -/
def tri (va : Nat) : Graph Str Nat Nat :=
  ⟨[⟨[], 0, [], none, [(['a'], 1), (sb, 2)], []⟩, ⟨['a'], va, [], some 0, [], []⟩, ⟨sb, 1, [], some 0, [], []⟩],
   [⟨0, 1, 0, .prod⟩, ⟨0, 2, 0, .prod⟩, ⟨1, 2, 0, .prod⟩]⟩
/-- the same with another dependency -/
def quad : Graph Str Nat Nat :=
  ⟨[⟨[], 0, [], none, [(['a'], 1), (sb, 2), (['c'], 3)], []⟩, ⟨['a'], 1, [], some 0, [], []⟩, ⟨sb, 1, [], some 0, [], []⟩, ⟨['c'], 7, [], some 0, [], []⟩],
   [⟨0, 1, 0, .prod⟩, ⟨0, 2, 0, .prod⟩, ⟨1, 2, 0, .prod⟩, ⟨0, 3, 0, .prod⟩]⟩
/-- one scoped package -/
def one : Graph Str Nat Nat := ⟨[⟨[], 0, [], none, [(sb, 1)], []⟩, ⟨sb, 1, [], some 0, [], []⟩], [⟨0, 1, 0, .prod⟩]⟩
/-- two of the same scope -/
def two : Graph Str Nat Nat := ⟨[⟨[], 0, [], none, [(sb, 1), (sc, 2)], []⟩, ⟨sb, 1, [], some 0, [], []⟩, ⟨sc, 1, [], some 0, [], []⟩], [⟨0, 1, 0, .prod⟩, ⟨0, 2, 0, .prod⟩]⟩

/-- every package is a folder with one file, which is also a command -/
def pk : Pkgs Nat where
  content ver p := if p = [] then some .dir else if p = [pj] then some (.file [UInt8.ofNat ver]) else none
  scripts _ := true
  bins _ := [(['x'], [pj])]
def v : Env := ⟨fun _ => ['0', '1', '2', '3', '4', '5', '6', '7'], [['/'], ['w']]⟩
def none_ : Disk Nat Nat := ⟨fun _ => none, none⟩
/-- the disk after a first install -/
def after (g : Graph Str Nat Nat) : Disk Nat Nat := ⟨((install pk v g (List.range g.nodes.length) none_).map (·.tree)).getD (fun _ => none), some []⟩

theorem digits_ {s : Str} : (v.hash s).length = 8 ∧ '/' ∉ v.hash s ∧ '@' ∉ v.hash s := by
  have e : v.hash s = ['0', '1', '2', '3', '4', '5', '6', '7'] := rfl
  rw [e]; decide
theorem nameA : FolderName ['a'] := .inl (by decide)
theorem nameC : FolderName ['c'] := .inl (by decide)
theorem nameSB : FolderName sb := .inr ⟨['s'], ['b'], rfl, by decide⟩
theorem nameSC : FolderName sc := .inr ⟨['s'], ['c'], rfl, by decide⟩
theorem dir_ (ver : Nat) : pk.content ver [] = some .dir := rfl
theorem folders_ (ver : Nat) (a b : Loc) (hb : b ≠ []) (h : pk.content ver (a ++ b) ≠ none) : pk.content ver a = some .dir := by
  by_cases ha : a = []
  · rw [ha]; rfl
  · exfalso
    apply h
    have h1 : a ++ b ≠ [] := by simp [ha]
    have h2 : a ++ b ≠ [pj] := by
      intro h
      have := congrArg List.length h
      have := List.length_pos_iff.2 ha
      have := List.length_pos_iff.2 hb
      simp at *
      omega
    simp [pk, h1, h2]
theorem links_ (ver : Nat) (r text : Loc) : pk.content ver r ≠ some (.link text) := by
  unfold pk
  dsimp only
  split
  · simp
  · split <;> simp
theorem bundled_ (ver : Nat) (r : Loc) : pk.content ver (nmWord :: r) = none := by simp [pk, nmWord, pj]

theorem inst_tri (va : Nat) : Installable pk v (tri va) where
  tree := by
    have w0 : Within (tri va) 0 0 := .refl rfl
    refine ⟨⟨_, rfl, rfl⟩, ?_, ?_, ?_, ?_⟩
    · intro i nd hi h0
      rcases i with _ | _ | _ | i
      · exact absurd rfl h0
      · cases hi; exact ⟨0, _, rfl, rfl, rfl⟩
      · cases hi; exact ⟨0, _, rfl, rfl, rfl⟩
      · cases hi
    · intro p pn n c hp hc
      have hm := IMap.mem_of_get? hc
      rcases p with _ | _ | _ | p
      · cases hp
        simp only [List.mem_cons, Prod.mk.injEq, List.not_mem_nil, or_false] at hm
        rcases hm with ⟨rfl, rfl⟩ | ⟨rfl, rfl⟩
        · exact ⟨_, rfl, rfl, rfl⟩
        · exact ⟨_, rfl, rfl, rfl⟩
      · cases hp; simp at hm
      · cases hp; simp at hm
      · cases hp
    · intro p pn hp
      rcases p with _ | _ | _ | p <;> cases hp <;> (unfold IMap.WF IMap.keys; simp [sb, sc])
    · intro i nd hi
      rcases i with _ | _ | _ | i
      · exact w0
      · exact .up rfl rfl w0
      · exact .up rfl rfl w0
      · cases hi
  order := by
    intro i nd p hi hp
    rcases i with _ | _ | _ | i <;> cases hi <;> cases hp <;> decide
  names := by
    intro i nd h0 hi
    rcases i with _ | _ | _ | i
    · exact absurd rfl h0
    · cases hi; exact ⟨nameA, show (['a'] : Str) ≠ storeName by decide⟩
    · cases hi; exact ⟨nameSB, by decide⟩
    · cases hi
  plain := by
    intro i nd h0 hi
    rcases i with _ | _ | _ | i
    · exact absurd rfl h0
    · cases hi; show dotdot ∉ nameSegs _; simp only; decide
    · cases hi; decide
    · cases hi
  folders := by intro i nd a b _ _ hb h; exact folders_ _ a b hb h
  dirs := by intro i nd _ _; rfl
  bundled := by intro i nd r _ _; exact bundled_ _ r
  noBin := by
    intro i nd h0 hi
    rcases i with _ | _ | _ | i <;> first | exact absurd rfl h0 | (cases hi; done) | (cases hi; exact (by decide)) | (cases hi; simp only; decide)
  noLinks := by
    intro i nd r text _ _ h
    exact links_ _ r text h
  known := by
    intro e he
    simp only [tri, List.mem_cons, List.not_mem_nil, or_false] at he
    rcases he with rfl | rfl | rfl <;> exact ⟨by decide, _, rfl⟩
  sources := by
    intro e he
    simp only [tri, List.mem_cons, List.not_mem_nil, or_false] at he
    rcases he with rfl | rfl | rfl <;> exact ⟨_, rfl⟩
  single := by
    intro i
    by_cases h0 : 0 = i <;> by_cases h1 : 1 = i <;> simp [depsOf, tri, h0, h1, nameOf, sb, sc] <;> (try omega) <;> (try subst h0) <;> (try subst h1) <;> simp [nameOf]
  absolute := rfl
  digits := by intro s; exact digits_
  apart := by
    intro i j nd nd' i0 j0 hi hj hn _
    rcases i with _ | _ | _ | i <;> rcases j with _ | _ | _ | j <;> first | rfl | exact absurd rfl i0 | exact absurd rfl j0 | (cases hi; done) | (cases hj; done) | (cases hi; cases hj; simp only at hn; exact absurd hn (by decide))

theorem inst_quad : Installable pk v quad where
  tree := by
    have w0 : Within quad 0 0 := .refl rfl
    refine ⟨⟨_, rfl, rfl⟩, ?_, ?_, ?_, ?_⟩
    · intro i nd hi h0
      rcases i with _ | _ | _ | _ | i
      · exact absurd rfl h0
      · cases hi; exact ⟨0, _, rfl, rfl, rfl⟩
      · cases hi; exact ⟨0, _, rfl, rfl, rfl⟩
      · cases hi; exact ⟨0, _, rfl, rfl, rfl⟩
      · cases hi
    · intro p pn n c hp hc
      have hm := IMap.mem_of_get? hc
      rcases p with _ | _ | _ | _ | p
      · cases hp
        simp only [List.mem_cons, Prod.mk.injEq, List.not_mem_nil, or_false] at hm
        rcases hm with ⟨rfl, rfl⟩ | ⟨rfl, rfl⟩ | ⟨rfl, rfl⟩
        · exact ⟨_, rfl, rfl, rfl⟩
        · exact ⟨_, rfl, rfl, rfl⟩
        · exact ⟨_, rfl, rfl, rfl⟩
      · cases hp; simp at hm
      · cases hp; simp at hm
      · cases hp; simp at hm
      · cases hp
    · intro p pn hp
      rcases p with _ | _ | _ | _ | p <;> cases hp <;> (unfold IMap.WF IMap.keys; simp [sb, sc])
    · intro i nd hi
      rcases i with _ | _ | _ | _ | i
      · exact w0
      · exact .up rfl rfl w0
      · exact .up rfl rfl w0
      · exact .up rfl rfl w0
      · cases hi
  order := by
    intro i nd p hi hp
    rcases i with _ | _ | _ | _ | i <;> cases hi <;> cases hp <;> decide
  names := by
    intro i nd h0 hi
    rcases i with _ | _ | _ | _ | i
    · exact absurd rfl h0
    · cases hi; exact ⟨nameA, show (['a'] : Str) ≠ storeName by decide⟩
    · cases hi; exact ⟨nameSB, by decide⟩
    · cases hi; exact ⟨nameC, by decide⟩
    · cases hi
  plain := by
    intro i nd h0 hi
    rcases i with _ | _ | _ | _ | i
    · exact absurd rfl h0
    · cases hi; show dotdot ∉ nameSegs _; simp only; decide
    · cases hi; decide
    · cases hi; decide
    · cases hi
  folders := by intro i nd a b _ _ hb h; exact folders_ _ a b hb h
  dirs := by intro i nd _ _; rfl
  bundled := by intro i nd r _ _; exact bundled_ _ r
  noBin := by
    intro i nd h0 hi
    rcases i with _ | _ | _ | _ | i <;> first | exact absurd rfl h0 | (cases hi; done) | (cases hi; exact (by decide)) | (cases hi; simp only; decide)
  noLinks := by
    intro i nd r text _ _ h
    exact links_ _ r text h
  known := by
    intro e he
    simp only [quad, List.mem_cons, List.not_mem_nil, or_false] at he
    rcases he with rfl | rfl | rfl | rfl <;> exact ⟨by decide, _, rfl⟩
  sources := by
    intro e he
    simp only [quad, List.mem_cons, List.not_mem_nil, or_false] at he
    rcases he with rfl | rfl | rfl | rfl <;> exact ⟨_, rfl⟩
  single := by
    intro i
    by_cases h0 : 0 = i <;> by_cases h1 : 1 = i <;> simp [depsOf, quad, h0, h1, nameOf, sb, sc] <;> (try omega) <;> (try subst h0) <;> (try subst h1) <;> simp [nameOf]
  absolute := rfl
  digits := by intro s; exact digits_
  apart := by
    intro i j nd nd' i0 j0 hi hj hn _
    rcases i with _ | _ | _ | _ | i <;> rcases j with _ | _ | _ | _ | j <;> first | rfl | exact absurd rfl i0 | exact absurd rfl j0 | (cases hi; done) | (cases hj; done) | (cases hi; cases hj; simp only at hn; exact absurd hn (by decide))

theorem inst_one : Installable pk v one where
  tree := by
    have w0 : Within one 0 0 := .refl rfl
    refine ⟨⟨_, rfl, rfl⟩, ?_, ?_, ?_, ?_⟩
    · intro i nd hi h0
      rcases i with _ | _ | i
      · exact absurd rfl h0
      · cases hi; exact ⟨0, _, rfl, rfl, rfl⟩
      · cases hi
    · intro p pn n c hp hc
      have hm := IMap.mem_of_get? hc
      rcases p with _ | _ | p
      · cases hp
        simp only [List.mem_cons, Prod.mk.injEq, List.not_mem_nil, or_false] at hm
        obtain ⟨rfl, rfl⟩ := hm
        exact ⟨_, rfl, rfl, rfl⟩
      · cases hp; simp at hm
      · cases hp
    · intro p pn hp
      rcases p with _ | _ | p <;> cases hp <;> (unfold IMap.WF IMap.keys; simp [sb, sc])
    · intro i nd hi
      rcases i with _ | _ | i
      · exact w0
      · exact .up rfl rfl w0
      · cases hi
  order := by
    intro i nd p hi hp
    rcases i with _ | _ | i <;> cases hi <;> cases hp <;> decide
  names := by
    intro i nd h0 hi
    rcases i with _ | _ | i
    · exact absurd rfl h0
    · cases hi; exact ⟨nameSB, by decide⟩
    · cases hi
  plain := by
    intro i nd h0 hi
    rcases i with _ | _ | i
    · exact absurd rfl h0
    · cases hi; show dotdot ∉ nameSegs _; simp only; decide
    · cases hi
  folders := by intro i nd a b _ _ hb h; exact folders_ _ a b hb h
  dirs := by intro i nd _ _; rfl
  bundled := by intro i nd r _ _; exact bundled_ _ r
  noBin := by
    intro i nd h0 hi
    rcases i with _ | _ | i <;> first | exact absurd rfl h0 | (cases hi; done) | (cases hi; exact (by decide)) | (cases hi; simp only; decide)
  noLinks := by
    intro i nd r text _ _ h
    exact links_ _ r text h
  known := by
    intro e he
    simp only [one, List.mem_cons, List.not_mem_nil, or_false] at he
    subst he; exact ⟨by decide, _, rfl⟩
  sources := by
    intro e he
    simp only [one, List.mem_cons, List.not_mem_nil, or_false] at he
    subst he; exact ⟨_, rfl⟩
  single := by
    intro i
    by_cases h0 : 0 = i <;> by_cases h1 : 1 = i <;> simp [depsOf, one, h0, h1, nameOf, sb, sc] <;> (try omega) <;> (try subst h0) <;> (try subst h1) <;> simp [nameOf]
  absolute := rfl
  digits := by intro s; exact digits_
  apart := by
    intro i j nd nd' i0 j0 hi hj hn _
    rcases i with _ | _ | i <;> rcases j with _ | _ | j <;> first | rfl | exact absurd rfl i0 | exact absurd rfl j0 | (cases hi; done) | (cases hj; done) | (cases hi; cases hj; simp only at hn; exact absurd hn (by decide))

theorem inst_two : Installable pk v two where
  tree := by
    have w0 : Within two 0 0 := .refl rfl
    refine ⟨⟨_, rfl, rfl⟩, ?_, ?_, ?_, ?_⟩
    · intro i nd hi h0
      rcases i with _ | _ | _ | i
      · exact absurd rfl h0
      · cases hi; exact ⟨0, _, rfl, rfl, rfl⟩
      · cases hi; exact ⟨0, _, rfl, rfl, rfl⟩
      · cases hi
    · intro p pn n c hp hc
      have hm := IMap.mem_of_get? hc
      rcases p with _ | _ | _ | p
      · cases hp
        simp only [List.mem_cons, Prod.mk.injEq, List.not_mem_nil, or_false] at hm
        rcases hm with ⟨rfl, rfl⟩ | ⟨rfl, rfl⟩
        · exact ⟨_, rfl, rfl, rfl⟩
        · exact ⟨_, rfl, rfl, rfl⟩
      · cases hp; simp at hm
      · cases hp; simp at hm
      · cases hp
    · intro p pn hp
      rcases p with _ | _ | _ | p <;> cases hp <;> (unfold IMap.WF IMap.keys; simp [sb, sc])
    · intro i nd hi
      rcases i with _ | _ | _ | i
      · exact w0
      · exact .up rfl rfl w0
      · exact .up rfl rfl w0
      · cases hi
  order := by
    intro i nd p hi hp
    rcases i with _ | _ | _ | i <;> cases hi <;> cases hp <;> decide
  names := by
    intro i nd h0 hi
    rcases i with _ | _ | _ | i
    · exact absurd rfl h0
    · cases hi; exact ⟨nameSB, by decide⟩
    · cases hi; exact ⟨nameSC, by decide⟩
    · cases hi
  plain := by
    intro i nd h0 hi
    rcases i with _ | _ | _ | i
    · exact absurd rfl h0
    · cases hi; show dotdot ∉ nameSegs _; simp only; decide
    · cases hi; decide
    · cases hi
  folders := by intro i nd a b _ _ hb h; exact folders_ _ a b hb h
  dirs := by intro i nd _ _; rfl
  bundled := by intro i nd r _ _; exact bundled_ _ r
  noBin := by
    intro i nd h0 hi
    rcases i with _ | _ | _ | i <;> first | exact absurd rfl h0 | (cases hi; done) | (cases hi; exact (by decide)) | (cases hi; simp only; decide)
  noLinks := by
    intro i nd r text _ _ h
    exact links_ _ r text h
  known := by
    intro e he
    simp only [two, List.mem_cons, List.not_mem_nil, or_false] at he
    rcases he with rfl | rfl <;> exact ⟨by decide, _, rfl⟩
  sources := by
    intro e he
    simp only [two, List.mem_cons, List.not_mem_nil, or_false] at he
    rcases he with rfl | rfl <;> exact ⟨_, rfl⟩
  single := by
    intro i
    by_cases h0 : 0 = i <;> by_cases h1 : 1 = i <;> simp [depsOf, two, h0, h1, nameOf, sb, sc] <;> (try omega) <;> (try subst h0) <;> (try subst h1) <;> simp [nameOf]
  absolute := rfl
  digits := by intro s; exact digits_
  apart := by
    intro i j nd nd' i0 j0 hi hj hn _
    rcases i with _ | _ | _ | i <;> rcases j with _ | _ | _ | j <;> first | rfl | exact absurd rfl i0 | exact absurd rfl j0 | (cases hi; done) | (cases hj; done) | (cases hi; cases hj; simp only at hn; exact absurd hn (by decide))

theorem after_ok {g : Graph Str Nat Nat} (hg : Installable pk v g) : Installed pk v g (after g).tree := by
  apply installed_of_exact
  obtain ⟨y, h1, h2⟩ := C46_fresh pk v g hg none_ ⟨rfl, .inl fun _ => rfl⟩ (List.range g.nodes.length) (List.Perm.refl _)
  unfold after
  rw [h1]
  exact h2

/-- C46_update_partial applies when a dependency is added -/
theorem compatible : Compatible pk v (tri 1) quad where
  same := by
    intro k i nd nd' k0 i0 hk hi h
    rcases k with _ | _ | _ | k <;> rcases i with _ | _ | _ | _ | i <;>
      first | exact absurd rfl k0 | exact absurd rfl i0 | (cases hk; done) | (cases hi; done) | (cases hk; cases hi; rfl) | exact absurd h (by decide +kernel)
  kept := by
    intro k i l nd nd' hk hi h hl
    rcases k with _ | _ | _ | k <;> rcases i with _ | _ | _ | _ | i <;>
      first | (cases hk; done) | (cases hi; done) | exact absurd h (by decide +kernel) |
        (simp only [depsOf, tri, List.filter_cons, List.filter_nil] at hl; revert hl; simp; done) |
        (have hl' : l = 1 ∨ l = 2 := by
           simp [depsOf, tri] at hl; exact hl
         rcases hl' with rfl | rfl <;> [exact ⟨1, by decide, rfl⟩; exact ⟨2, by decide, rfl⟩]) |
        (have hl' : l = 2 := by
           simp [depsOf, tri] at hl; exact hl
         subst hl'; exact ⟨2, by decide, rfl⟩)
  inScope := by
    intro k i l j nd nd' s t t' hk hi h hl hj hs hs'
    rcases k with _ | _ | _ | k <;> rcases i with _ | _ | _ | _ | i <;>
      first | (cases hk; done) | (cases hi; done) | exact absurd h (by decide +kernel) |
        (simp [depsOf, tri] at hl; done) |
        (have hj' : j = 1 ∨ j = 2 ∨ j = 3 := by
           simp [depsOf, quad] at hj; exact hj
         rcases hj' with rfl | rfl | rfl <;> first | (revert hs'; simp [nameSegs, nameOf, quad, PSpec.splitChar]; done) | exact ⟨2, by decide, rfl, by decide +kernel⟩) |
        (have hj' : j = 2 := by
           simp [depsOf, quad] at hj; exact hj
         subst hj'; exact ⟨2, by decide, rfl, by decide +kernel⟩)
  scopes := by
    intro k nd k0 hk
    rcases k with _ | _ | _ | k
    · exact absurd rfl k0
    · cases hk; exact ⟨1, _, by decide, rfl, fun s t h => ⟨t, h⟩⟩
    · cases hk; exact ⟨2, _, by decide, rfl, fun s t h => ⟨t, h⟩⟩
    · cases hk

/-- adding a dependency -/
example : ∃ y, install pk v quad [3, 0, 2, 1] (after (tri 1)) = some y ∧ Installed pk v quad y.tree :=
  C46_update_partial pk v (tri 1) quad (inst_tri 1) inst_quad compatible (after (tri 1)) (after_ok (inst_tri 1)) _ (by unfold Order; decide +kernel)

/-- pruning has something to compare with -/
example : Usable (after (tri 1)) := ⟨by decide +kernel, by decide, by decide +kernel⟩

/-- what is where -/
example : (after (tri 1)).tree [['a']] = some (.link (storeName :: ['a', '@', '0', '1', '2', '3', '4', '5', '6', '7'] :: nmWord :: [['a']])) ∧
    (after (tri 1)).tree (home v (tri 1) 1 ++ [pj]) = some (.file [1]) ∧ finds v (after (tri 1)).tree (home v (tri 1) 1) sb = some (home v (tri 1) 2) := by
  decide +kernel

end Ex

/-- C46 is false of the code: with another version of a package at the same place of the tree, the old one stays. -/
theorem C46_update_fails : ∃ y, Installed Ex.pk Ex.v (Ex.tri 1) (Ex.after (Ex.tri 1)).tree ∧ Installable Ex.pk Ex.v (Ex.tri 2) ∧
    install Ex.pk Ex.v (Ex.tri 2) [0, 1, 2] (Ex.after (Ex.tri 1)) = some y ∧
    y.tree (home Ex.v (Ex.tri 2) 1 ++ [Ex.pj]) = some (.file [1]) ∧ ¬ Installed Ex.pk Ex.v (Ex.tri 2) y.tree := by
  have h : (install Ex.pk Ex.v (Ex.tri 2) [0, 1, 2] (Ex.after (Ex.tri 1))).map (fun y => y.tree (home Ex.v (Ex.tri 2) 1 ++ [Ex.pj])) =
    some (some (.file [1])) := by decide +kernel
  obtain ⟨y, h1, h2⟩ := Option.map_eq_some_iff.1 h
  refine ⟨y, Ex.after_ok (Ex.inst_tri 1), Ex.inst_tri 2, h1, h2, ?_⟩
  intro hi
  have h3 := (hi (home Ex.v (Ex.tri 2) 1 ++ [Ex.pj]) (by
    rw [inBin_home (Ex.inst_tri 2) ⟨by decide, _, rfl⟩]; decide) (.file [2])).2 (.inr (.inl ⟨1, _, by decide, rfl, .inl ⟨[Ex.pj], rfl, rfl⟩⟩))
  rw [h2] at h3
  exact absurd h3 (by decide)

/-- C46 is false of the code: adding a second dependency of the same scope makes applying fail. -/
theorem C46_scope_fails : Installed Ex.pk Ex.v Ex.one (Ex.after Ex.one).tree ∧ Installable Ex.pk Ex.v Ex.two ∧
    (install Ex.pk Ex.v Ex.two [0, 1, 2] (Ex.after Ex.one)).isNone = true :=
  ⟨Ex.after_ok Ex.inst_one, Ex.inst_two, by decide +kernel⟩

/-- C46 is false of the code: a package finds what it does not declare, if the project depends on it. -/
theorem C46_phantom_fails : Installed Ex.pk Ex.v (Ex.tri 1) (Ex.after (Ex.tri 1)).tree ∧ depsOf (Ex.tri 1) 2 = [] ∧
    finds Ex.v (Ex.after (Ex.tri 1)).tree (home Ex.v (Ex.tri 1) 2) ['a'] = some (home Ex.v (Ex.tri 1) 1) :=
  ⟨Ex.after_ok (Ex.inst_tri 1), rfl, by decide +kernel⟩

/-! ### the digits -/

/-- root ⊃ x, y; x ⊃ n; y ⊃ n -/
def fork (x y n : Str) : Graph Str Unit Unit :=
  ⟨[⟨[], (), [], none, [(x, 1), (y, 2)], []⟩, ⟨x, (), [], some 0, [(n, 3)], []⟩, ⟨y, (), [], some 0, [(n, 4)], []⟩,
    ⟨n, (), [], some 1, [], []⟩, ⟨n, (), [], some 2, [], []⟩], []⟩

theorem fork_tree (x y n : Str) (h : x ≠ y) : FolderTree (fork x y n) := by
  have w0 : Within (fork x y n) 0 0 := .refl rfl
  have w1 : Within (fork x y n) 1 0 := .up rfl rfl w0
  have w2 : Within (fork x y n) 2 0 := .up rfl rfl w0
  refine ⟨⟨_, rfl, rfl⟩, ?_, ?_, ?_, ?_⟩
  · intro i nd hi h0
    rcases i with _ | _ | _ | _ | _ | i
    · exact absurd rfl h0
    · cases hi; exact ⟨0, _, rfl, rfl, by simp [IMap.get?]⟩
    · cases hi; exact ⟨0, _, rfl, rfl, by simp [IMap.get?, h]⟩
    · cases hi; exact ⟨1, _, rfl, rfl, by simp [IMap.get?]⟩
    · cases hi; exact ⟨2, _, rfl, rfl, by simp [IMap.get?]⟩
    · cases hi
  · intro p pn m c hp hc
    have hm := IMap.mem_of_get? hc
    rcases p with _ | _ | _ | _ | _ | p
    · cases hp
      simp only [List.mem_cons, Prod.mk.injEq, List.not_mem_nil, or_false] at hm
      rcases hm with ⟨rfl, rfl⟩ | ⟨rfl, rfl⟩
      · exact ⟨_, rfl, rfl, rfl⟩
      · exact ⟨_, rfl, rfl, rfl⟩
    · cases hp
      simp only [List.mem_cons, Prod.mk.injEq, List.not_mem_nil, or_false] at hm
      obtain ⟨rfl, rfl⟩ := hm
      exact ⟨_, rfl, rfl, rfl⟩
    · cases hp
      simp only [List.mem_cons, Prod.mk.injEq, List.not_mem_nil, or_false] at hm
      obtain ⟨rfl, rfl⟩ := hm
      exact ⟨_, rfl, rfl, rfl⟩
    · cases hp; simp at hm
    · cases hp; simp at hm
    · cases hp
  · intro p pn hp
    rcases p with _ | _ | _ | _ | _ | p <;> cases hp <;> (unfold IMap.WF IMap.keys; simp [h])
  · intro i nd hi
    rcases i with _ | _ | _ | _ | _ | i
    · exact w0
    · exact w1
    · exact w2
    · exact .up rfl rfl w1
    · exact .up rfl rfl w2
    · cases hi

/-- C46 is false of the code in general: whatever the hash, as only 32 bits of it are used, there is a tree with two packages
that get the same folder. -/
theorem C46_collision_fails (bits : Str → Fin (2 ^ 32)) (digits : Fin (2 ^ 32) → Str) (top : Loc) (n : Str) :
    ∃ x y, x ≠ y ∧ FolderTree (fork x y n) ∧
      home ⟨fun s => digits (bits s), top⟩ (fork x y n) 3 = home ⟨fun s => digits (bits s), top⟩ (fork x y n) 4 := by
  obtain ⟨a, b, hab, h⟩ := Finite.exists_ne_map_eq_of_infinite (fun k : Nat => bits (joinPath [List.replicate k 'a', n]))
  have hne : List.replicate a 'a' ≠ List.replicate b 'a' := by
    intro h'
    have := congrArg List.length h'
    simp at this
    exact hab this
  refine ⟨_, _, hne, fork_tree _ _ n hne, ?_⟩
  have e1 : (fork (List.replicate a 'a') (List.replicate b 'a') n).nodePath 3 = [List.replicate a 'a', n] := rfl
  have e2 : (fork (List.replicate a 'a') (List.replicate b 'a') n).nodePath 4 = [List.replicate b 'a', n] := rfl
  unfold home dirName
  rw [e1, e2]
  dsimp only at h ⊢
  rw [h]
  rfl

end Iso
end Oro
