import Verif.Proofs.Isolated
/- Lemmas for C46 and C47: from one installed tree to another. -/

set_option linter.unusedSectionVars false

namespace Oro
namespace Iso
open Hoisted (Entry Tree Pkgs Disk storeName binName unpack below dirsAbove wiped)

variable {P S V I : Type}

section
variable {pk : Pkgs P} {v : Env} {g0 g : Graph Str P S}

/-! ### two trees -/

theorem same_dir (hg : Installable pk v g) {k i : Nat} (h : dirName v g0 k = dirName v g i) :
    nameOf g0 k = nameOf g i ∧ home v g0 k = home v g i := by
  have hn : nameOf g0 k = nameOf g i := by
    unfold dirName at h
    have hl := (hg.digits (joinPath (g0.nodePath k))).1
    have hl' := (hg.digits (joinPath (g.nodePath i))).1
    exact (List.append_inj' h (by simp [hl, hl'])).1
  exact ⟨hn, by unfold home; rw [h, hn]⟩

theorem segs_join {n : Str} : Hoisted.joinSlash (PSpec.splitChar '/' n) = n := by
  induction n with
  | nil => rfl
  | cons c n ih =>
    by_cases h : c = '/'
    · subst h
      have : PSpec.splitChar '/' ('/' :: n) = [] :: PSpec.splitChar '/' n := by simp [PSpec.splitChar]
      rw [this]
      cases hs : PSpec.splitChar '/' n with
      | nil => cases n with
        | nil => simp [PSpec.splitChar] at hs
        | cons d n => revert hs; simp only [PSpec.splitChar]; split <;> [simp; (cases PSpec.splitChar '/' n <;> simp)]
      | cons a l => rw [hs] at ih; simp [Hoisted.joinSlash, ih]
    · simp only [PSpec.splitChar]
      rw [if_neg h]
      cases hs : PSpec.splitChar '/' n with
      | nil => cases n with
        | nil => simp [PSpec.splitChar] at hs
        | cons d n => revert hs; simp only [PSpec.splitChar]; split <;> [simp; (cases PSpec.splitChar '/' n <;> simp)]
      | cons a l => rw [hs] at ih; cases l <;> simp [Hoisted.joinSlash] at ih ⊢ <;> simp [← ih]

theorem split_inj {n m : Str} (h : PSpec.splitChar '/' n = PSpec.splitChar '/' m) : n = m := by
  rw [← segs_join (n := n), h, segs_join]

theorem cross (h0 : Installable pk v g0) (hg : Installable pk v g) {k i : Nat} (hk : IsPkg g0 k) (hi : IsPkg g i) {x : Loc}
    (h1 : home v g0 k <+: x) (h2 : home v g i <+: x) : nameOf g0 k = nameOf g i ∧ home v g0 k = home v g i := by
  obtain ⟨a, b, e1, e2, e3, _, e5⟩ := home_form h0 hk
  obtain ⟨a', b', e1', e2', e3', _, e5'⟩ := home_form hg hi
  refine same_dir hg ?_
  refine split_inj ?_
  obtain ⟨r, rfl⟩ := h1
  obtain ⟨r', h2⟩ := h2
  rw [e3, e3'] at h2
  simp only [List.cons_append, List.append_assoc, List.cons.injEq, true_and] at h2
  obtain ⟨rfl, hx, _⟩ := append_single_inj e5' (at_ne_nm _ _) e5 (at_ne_nm _ _) h2
  rw [e2, e2', hx]

/-- `x` is a folder of dependencies in both trees -/
theorem nm_eq (h0 : Installable pk v g0) (hg : Installable pk v g) {k i : Nat} (hk : Src g0 k) (hi : Src g i) (hne : k ≠ 0 ∨ i ≠ 0) {x : Loc}
    (h1 : nm v g0 k <+: x) (h2 : nm v g i <+: x) (hx1 : k = 0 → x.head? ≠ some storeName) (hx2 : i = 0 → x.head? ≠ some storeName) : nm v g0 k = nm v g i := by
  rcases hk with rfl | hk <;> rcases hi with rfl | hi
  · rfl
  · exfalso
    rw [nm_pkg v g hi.1] at h2
    exact hx1 rfl (head_of_home ((List.prefix_append _ _).trans h2))
  · exfalso
    rw [nm_pkg v g0 hk.1] at h1
    exact hx2 rfl (head_of_home ((List.prefix_append _ _).trans h1))
  · rw [nm_pkg v g hi.1] at h2 ⊢
    rw [nm_pkg v g0 hk.1] at h1 ⊢
    rw [(cross h0 hg hk hi ((List.prefix_append _ _).trans h1) ((List.prefix_append _ _).trans h2)).2]

/-! ### an installed tree -/

theorem src_of_edge {a : Edge S} (ha : a ∈ g0.edges) {nd : Node Str P S} (hn : g0.nodes[a.src]? = some nd) :
    Src g0 a.src ∧ a.dst ∈ depsOf g0 a.src := by
  refine ⟨?_, List.mem_map.2 ⟨a, List.mem_filter.2 ⟨ha, by simp⟩, rfl⟩⟩
  by_cases h : a.src = 0
  · exact .inl h
  · exact .inr ⟨h, nd, hn⟩

theorem src_node (h0 : Installable pk v g0) {k : Nat} (h : Src g0 k) : ∃ nd, g0.nodes[k]? = some nd := by
  rcases h with rfl | h
  · obtain ⟨nd, hn, _⟩ := h0.tree.root; exact ⟨nd, hn⟩
  · exact h.2

/-- the same in terms of packages -/
theorem expected_iff (h0 : Installable pk v g0) {p : Loc} {e : Entry} : Expected pk v g0 p e ↔
    (p = [] ∧ e = .dir) ∨
    (∃ i nd, i ≠ 0 ∧ g0.nodes[i]? = some nd ∧ ((∃ r, p = home v g0 i ++ r ∧ pk.content nd.pkg r = some e) ∨ (e = .dir ∧ p <+: home v g0 i))) ∨
    (∃ k l, Src g0 k ∧ l ∈ depsOf g0 k ∧
      ((p = entryFor v g0 k l ∧ e = .link (diff (home v g0 l) p.dropLast)) ∨ (e = .dir ∧ p <+: (entryFor v g0 k l).dropLast))) := by
  unfold Expected
  refine or_congr Iff.rfl (or_congr Iff.rfl ?_)
  constructor
  · rintro ⟨a, ha, ⟨nd, hn⟩, h⟩
    exact ⟨a.src, a.dst, (src_of_edge ha hn).1, (src_of_edge ha hn).2, h⟩
  · rintro ⟨k, l, hk, hl, h⟩
    unfold depsOf at hl
    obtain ⟨a, ha, rfl⟩ := List.mem_map.1 hl
    obtain ⟨ha', hs⟩ := List.mem_filter.1 ha
    have hs : a.src = k := by simpa using hs
    subst hs
    exact ⟨a, ha', src_node h0 hk, h⟩

theorem expected_sane (h0 : Installable pk v g0) {p r : Loc} {e : Entry} (hr : r ≠ []) (h : Expected pk v g0 (p ++ r) e) : Expected pk v g0 p .dir := by
  rw [expected_iff h0] at h ⊢
  rcases h with ⟨h, _⟩ | ⟨i, nd, i0, hn, ⟨r', h, hc⟩ | ⟨_, h⟩⟩ | ⟨k, l, hk, hl, ⟨h, _⟩ | ⟨_, h⟩⟩
  · simp [hr] at h
  · by_cases hp : p <+: home v g0 i
    · exact .inr (.inl ⟨i, nd, i0, hn, .inr ⟨rfl, hp⟩⟩)
    · have h1 : p <+: home v g0 i ++ r' := by rw [← h]; exact List.prefix_append _ _
      rcases List.prefix_or_prefix_of_prefix h1 (List.prefix_append (home v g0 i) r') with h2 | ⟨x, rfl⟩
      · exact absurd h2 hp
      · rw [List.append_assoc, List.append_cancel_left_eq] at h
        refine .inr (.inl ⟨i, nd, i0, hn, .inl ⟨x, rfl, ?_⟩⟩)
        exact h0.folders i nd x r i0 hn hr (by rw [h, hc]; simp)
  · exact .inr (.inl ⟨i, nd, i0, hn, .inr ⟨rfl, (List.prefix_append _ _).trans h⟩⟩)
  · refine .inr (.inr ⟨k, l, hk, hl, .inr ⟨rfl, ?_⟩⟩)
    rw [← h]
    refine prefix_dropLast (List.prefix_append _ _) ?_
    intro h'
    exact hr (by simpa using h')
  · exact .inr (.inr ⟨k, l, hk, hl, .inr ⟨rfl, (List.prefix_append _ _).trans h⟩⟩)

/-! ### links lead where they should -/

theorem walk_up (x y : Loc) (r : Loc) : walk (x ++ y) (List.replicate y.length dotdot ++ r) = walk x r := by
  induction y using List.reverseRecOn generalizing r with
  | nil => simp
  | append_singleton y c ih =>
    rw [List.length_append, List.length_singleton, List.replicate_succ, List.cons_append, walk, if_pos rfl]
    rw [if_neg (by simp), ← List.append_assoc, List.dropLast_concat]
    exact ih r

theorem walk_down (x r : Loc) (h : dotdot ∉ r) : walk x r = some (x ++ r) := by
  induction r generalizing x with
  | nil => simp [walk]
  | cons c r ih =>
    rw [walk, if_neg (by rintro rfl; simp at h), ih _ (fun hm => h (by simp [hm]))]
    simp

theorem walk_diff (x dst d : Loc) (h : dotdot ∉ dst) : walk (x ++ d) (diff dst d) = some (x ++ dst) := by
  induction dst generalizing x d with
  | nil =>
    have e : diff [] d = List.replicate d.length dotdot ++ [] := by cases d <;> rfl
    rw [e, walk_up, walk_down _ _ (by simp)]
  | cons a r ih =>
    cases d with
    | nil =>
      have e : diff (a :: r) [] = List.replicate 0 dotdot ++ a :: r := rfl
      rw [e]
      simp only [List.replicate_zero, List.nil_append, List.append_nil]
      exact walk_down _ _ h
    | cons b d =>
      rw [diff]
      split
      · rename_i hab
        subst hab
        have := ih (x ++ [a]) d (fun hm => h (by simp [hm]))
        simpa using this
      · have := walk_up x (b :: d) (a :: r)
        rw [List.length_cons] at this
        rw [this, walk_down _ _ h]

theorem split_noslash (c : Char) (n : Str) : ∀ x ∈ PSpec.splitChar c n, c ∉ x := by
  induction n with
  | nil => simp [PSpec.splitChar]
  | cons d n ih =>
    simp only [PSpec.splitChar]
    split
    · intro x hx
      rcases List.mem_cons.1 hx with rfl | hx
      · simp
      · exact ih x hx
    · rename_i h
      have h' : c ≠ d := fun e => h e.symm
      cases hs : PSpec.splitChar c n with
      | nil => simp [h']
      | cons a l =>
        rw [hs] at ih
        intro x hx
        rcases List.mem_cons.1 hx with rfl | hx
        · simp [h', ih a (by simp)]
        · exact ih x (by simp [hx])

theorem home_parts (hg : Installable pk v g) {i : Nat} (hi : IsPkg g i) : dotdot ∉ home v g i ∧ (∀ c ∈ home v g i, c ≠ ['/']) := by
  obtain ⟨a, b, e1, e2, e3, _⟩ := home_form hg hi
  obtain ⟨i0, nd, hn⟩ := hi
  have hp := hg.plain i nd i0 hn
  rw [← nameOf_eq hn, nameSegs] at hp
  constructor
  · unfold home
    rw [e1] at hp ⊢
    rw [e2]
    simp only [List.mem_append, List.mem_singleton, not_or] at hp
    simp only [List.mem_cons, List.mem_append, not_or, List.not_mem_nil, not_false_eq_true, and_true]
    refine ⟨by simp [dotdot, storeName], ⟨hp.1, ?_⟩, by simp [dotdot, nmWord], hp.1, hp.2⟩
    intro h
    have : '@' ∈ dotdot := by rw [h]; simp
    revert this; decide
  · unfold home
    intro c hc h
    subst h
    simp only [List.mem_cons, List.mem_append] at hc
    rcases hc with h | h | h | h
    · simp [storeName] at h
    · exact split_noslash '/' _ _ h (by simp)
    · simp [nmWord] at h
    · exact split_noslash '/' _ _ h (by simp)

theorem diff_head {dst d : Loc} (h : ∀ c ∈ dst, c ≠ ['/']) : (diff dst d).head? ≠ some ['/'] := by
  induction dst generalizing d with
  | nil => cases d <;> simp [diff, List.replicate_succ, dotdot]
  | cons a r ih =>
    cases d with
    | nil => simpa [diff] using h a (by simp)
    | cons b d =>
      rw [diff]
      split
      · exact ih (fun c hc => h c (by simp [hc]))
      · simp [List.replicate_succ, dotdot]

/-- a link made by the linker leads to the package -/
theorem resolve_diff (hg : Installable pk v g) {j : Nat} (hj : IsPkg g j) (d : Loc) : resolve v d (diff (home v g j) d) = some (home v g j) := by
  obtain ⟨h1, h2⟩ := home_parts hg hj
  unfold resolve
  rw [if_neg (diff_head h2)]
  simpa using walk_diff [] (home v g j) d h1

theorem diff_relative (hg : Installable pk v g) {j : Nat} (hj : IsPkg g j) (d x : Loc) : diff (home v g j) d ≠ v.top ++ x := by
  intro h
  have h1 := diff_head (d := d) (home_parts hg hj).2
  rw [h] at h1
  apply h1
  have := hg.absolute
  cases ht : v.top with
  | nil => rw [ht] at this; cases this
  | cons a l => rw [ht] at this; simpa using this

/-! ### pruning -/

theorem removedDep_iff {t : Tree} {q : Loc} : removedDep v g t q = true ↔
    ∃ i j, i < g.nodes.length ∧ j ∈ depsOf g i ∧ q = entryFor v g i j ∧ (nameSegs (nameOf g j)).length = 1 ∧ t q ≠ none ∧ t q ≠ some (.link (v.top ++ home v g j)) := by
  unfold removedDep badDep
  simp only [List.any_eq_true, List.mem_range, Bool.and_eq_true, decide_eq_true_eq]
  constructor
  · rintro ⟨i, hi, j, hj, ⟨h1, h2⟩, h3⟩
    refine ⟨i, j, hi, hj, h1, h2, ?_⟩
    split at h3
    · rename_i text ht
      rw [ht]
      simpa using h3
    · rename_i e ht hl
      rw [hl]
      refine ⟨by simp, ?_⟩
      intro h
      exact ht _ (Option.some.inj h)
    · cases h3
  · rintro ⟨i, j, hi, hj, h1, h2, h3, h4⟩
    refine ⟨i, hi, j, hj, ⟨h1, h2⟩, ?_⟩
    split
    · rename_i text ht
      rw [ht] at h4
      simpa using h4
    · rfl
    · rename_i h; exact absurd h h3

theorem src_lt (hg : Installable pk v g) {i : Nat} : i < g.nodes.length ↔ Src g i := by
  have hr : 0 < g.nodes.length := by
    obtain ⟨nd, hn, _⟩ := hg.tree.root
    exact (List.getElem?_eq_some_iff.1 hn).1
  constructor
  · intro h
    by_cases h0 : i = 0
    · exact .inl h0
    · exact .inr ⟨h0, _, List.getElem?_eq_getElem h⟩
  · rintro (rfl | ⟨_, nd, hn⟩)
    · exact hr
    · exact (List.getElem?_eq_some_iff.1 hn).1

theorem expected_dir {q : Loc} : expected v g q = true ↔ ∃ i, IsPkg g i ∧ q = storeName :: PSpec.splitChar '/' (dirName v g i) := by
  unfold expected
  simp only [List.any_eq_true, List.mem_range, Bool.and_eq_true, decide_eq_true_eq]
  constructor
  · rintro ⟨i, hi, h0, h⟩
    have h0 : i ≠ 0 := by simpa using h0
    exact ⟨i, ⟨h0, _, List.getElem?_eq_getElem hi⟩, h⟩
  · rintro ⟨i, ⟨h0, nd, hn⟩, h⟩
    exact ⟨i, (List.getElem?_eq_some_iff.1 hn).1, by simpa using h0, h⟩

/-- the folder of a package in the store, in one of two forms -/
theorem store_form (hg : Installable pk v g) {i : Nat} (hi : IsPkg g i) :
    (∃ b, b.head? ≠ some '@' ∧ PSpec.splitChar '/' (dirName v g i) = [b] ∧ b ≠ nmWord ∧
      home v g i = [storeName, b, nmWord, nameOf g i] ∧ nameSegs (nameOf g i) = [nameOf g i]) ∨
    ∃ s t x, PSpec.splitChar '/' (dirName v g i) = ['@' :: s, x] ∧ x ≠ nmWord ∧
      home v g i = [storeName, '@' :: s, x, nmWord, '@' :: s, t] ∧ nameSegs (nameOf g i) = ['@' :: s, t] := by
  have hn := (pkg_name hg hi).1
  obtain ⟨a, b, e1, e2, e3, ha, _⟩ := home_form hg hi
  rcases segs_form hn with ⟨c, h1, h2, h3, h4, h5⟩ | ⟨s, t, h1, h2, _⟩
  · left
    rw [h1] at e1
    have hab : a = [] ∧ b = c := by
      cases a with
      | nil => simpa using e1.symm
      | cons y a => simp at e1
    obtain ⟨rfl, rfl⟩ := hab
    refine ⟨_, ?_, e2, at_ne_nm _ _, ?_, ?_⟩
    · have hne : b ≠ [] := by
        rcases hn with ⟨_, hne, _⟩ | ⟨s, t, hst, _⟩
        · rw [h2]; exact hne
        · rw [h2, hst]; simp
      cases b with
      | nil => exact absurd rfl hne
      | cons c b => simpa using h3
    · rw [e3, ← h2]; simp
    · rw [nameSegs, h1, ← h2]
  · right
    rw [h1] at e1
    have hab : a = ['@' :: s] ∧ b = t := by
      cases a with
      | nil => simp at e1
      | cons y a => cases a with
        | nil => simp at e1; exact ⟨by rw [← e1.1], e1.2.symm⟩
        | cons z a => simp at e1
    obtain ⟨rfl, rfl⟩ := hab
    exact ⟨s, b, _, e2, at_ne_nm _ _, by rw [e3]; simp, h1⟩

/-- nothing on the way to a package of the tree, or in it, is removed from the store -/
theorem home_not_removedStore (hg : Installable pk v g) {i : Nat} (hi : IsPkg g i) {t : Tree} {q r : Loc} (hq : q <+: home v g i ++ r)
    (hs : ∀ s, [storeName, '@' :: s] <+: home v g i → t [storeName, '@' :: s] = some .dir) : removedStore v g t q = false := by
  rcases store_form hg hi with ⟨b, _, e1, _, e2, _⟩ | ⟨s, t', x, e1, _, e2, _⟩
  · have hexp : expected v g [storeName, b] = true := expected_dir.2 ⟨i, hi, by rw [e1]⟩
    rw [e2] at hq
    match q with
    | [] => rfl
    | [_] => rfl
    | [c, d] =>
      simp only [List.cons_append, List.cons_prefix_cons] at hq
      obtain ⟨rfl, rfl, _⟩ := hq
      simp [removedStore, hexp]
    | [c, d, f] =>
      simp only [List.cons_append, List.cons_prefix_cons] at hq
      obtain ⟨rfl, rfl, _⟩ := hq
      simp [removedStore, hexp]
    | c :: d :: f :: h :: q => rfl
  · have hexp : expected v g [storeName, '@' :: s, x] = true := expected_dir.2 ⟨i, hi, by rw [e1]⟩
    have hd := hs s (by rw [e2]; exact ⟨_, rfl⟩)
    rw [e2] at hq
    match q with
    | [] => rfl
    | [_] => rfl
    | [c, d] =>
      simp only [List.cons_append, List.cons_prefix_cons] at hq
      obtain ⟨rfl, rfl, _⟩ := hq
      simp [removedStore, hd]
    | [c, d, f] =>
      simp only [List.cons_append, List.cons_prefix_cons] at hq
      obtain ⟨rfl, rfl, rfl, _⟩ := hq
      simp [removedStore, hexp]
    | c :: d :: f :: h :: q => rfl

section
variable {t : Tree}

/-- what pruning leaves of an installed tree -/
theorem pruned_iff {p : Loc} {e : Entry} : pruned v g t p = some e ↔
    t p = some e ∧ ∀ q, q <+: p → removedDep v g t q = false ∧ removedStore v g t q = false := by
  unfold pruned
  split
  · rename_i h
    simp only [List.any_eq_true, List.mem_inits, Bool.or_eq_true] at h
    obtain ⟨q, hq, h⟩ := h
    constructor
    · intro h'; cases h'
    · rintro ⟨_, h'⟩
      obtain ⟨h1, h2⟩ := h' q hq
      rw [h1, h2] at h
      simp at h
  · rename_i h
    simp only [List.any_eq_true, List.mem_inits, Bool.or_eq_true, not_exists, not_and, not_or, Bool.not_eq_true] at h
    exact ⟨fun h' => ⟨h', h⟩, fun h' => h'.1⟩

variable (h0 : Installable pk v g0) (hg : Installable pk v g) (hc : Compatible pk v g0 g) (ht : Exact pk v g0 t)
include h0 hg

/-- a folder of the store that is still there belongs to a package of the new tree -/
theorem kept_store (ht : Exact pk v g0 t) {k : Nat} (hk : IsPkg g0 k) {p : Loc} (hp : storeName :: PSpec.splitChar '/' (dirName v g0 k) <+: p)
    (h : ∀ q, q <+: p → removedStore v g t q = false) : ∃ i, IsPkg g i ∧ nameOf g0 k = nameOf g i ∧ home v g0 k = home v g i := by
  have key : expected v g (storeName :: PSpec.splitChar '/' (dirName v g0 k)) = true := by
    have hr := h _ hp
    obtain ⟨nd, hn⟩ := hk.2
    rcases store_form h0 hk with ⟨b, hb, e1, _, e2, _⟩ | ⟨s, x, y, e1, _, e2, _⟩
    · rw [e1] at hr ⊢
      simp only [removedStore, decide_true, Bool.true_and] at hr
      simpa [hb] using hr
    · rw [e1] at hr ⊢
      have hd : t [storeName, '@' :: s] = some .dir := by
        rw [ht, expected_iff h0]
        exact .inr (.inl ⟨k, nd, hk.1, hn, .inr ⟨rfl, by rw [e2]; exact ⟨_, rfl⟩⟩⟩)
      have hne : expected v g [storeName, '@' :: s] = false := by
        rw [Bool.eq_false_iff]
        intro he
        obtain ⟨i, hi, he⟩ := expected_dir.1 he
        rcases store_form hg hi with ⟨b, hb, f1, _⟩ | ⟨s', x', y', f1, _⟩
        · rw [f1] at he
          simp only [List.cons.injEq, and_true, true_and] at he
          rw [← he] at hb
          exact hb rfl
        · rw [f1] at he
          simp at he
      simp only [removedStore, decide_true, Bool.true_and, hne, hd, List.head?_cons, Bool.not_false] at hr
      simpa using hr
  obtain ⟨i, hi, he⟩ := expected_dir.1 key
  have hd : dirName v g0 k = dirName v g i := split_inj (List.cons.inj he).2
  exact ⟨i, hi, same_dir hg hd⟩

/-- the folder of dependencies of a package of the new tree was one in the old tree if there is something in it -/
theorem old_nm (ht : Exact pk v g0 t) {i : Nat} (hi : Src g i) {a : Loc} {e : Entry} (ha : a ≠ []) (hst : a.head? ≠ some storeName) (h : t (nm v g i ++ a) = some e) :
    ∃ k l, Src g0 k ∧ l ∈ depsOf g0 k ∧ nm v g0 k = nm v g i ∧
      ((a = nameSegs (nameOf g0 l) ∧ e = .link (diff (home v g0 l) (entryFor v g0 k l).dropLast)) ∨ (e = .dir ∧ ∃ s x, a = ['@' :: s] ∧ nameSegs (nameOf g0 l) = ['@' :: s, x])) := by
  rw [ht, expected_iff h0] at h
  have haself : ∀ {x}, i = 0 → nm v g i ++ a <+: x → x.head? ≠ some storeName := by
    intro x hi0 hx hh
    rw [hi0, nm_root, List.nil_append] at hx
    exact hst (head_of_prefix hx ha hh)
  rcases h with ⟨h, _⟩ | ⟨k, nd, k0, kn, ⟨r, h, hcon⟩ | ⟨rfl, h⟩⟩ | ⟨k, l, hk, hl, h⟩
  · simp [ha] at h
  · exfalso
    rcases hi with rfl | hi
    · exact haself rfl (by rw [h]) (head_of_home (List.prefix_append _ _))
    · rw [nm_pkg v g hi.1, List.append_assoc] at h
      have := (cross h0 hg ⟨k0, nd, kn⟩ hi (x := home v g0 k ++ r) (List.prefix_append _ _) (by rw [← h]; exact List.prefix_append _ _)).2
      rw [this, List.append_cancel_left_eq] at h
      rw [← h] at hcon
      have hb := h0.bundled k nd a k0 kn
      rw [List.singleton_append, hb] at hcon
      cases hcon
  · exfalso
    rcases hi with rfl | hi
    · exact haself rfl h rfl
    · rw [nm_pkg v g hi.1, List.append_assoc] at h
      have := (cross h0 hg ⟨k0, nd, kn⟩ hi (x := home v g0 k) List.prefix_rfl ((List.prefix_append _ _).trans h)).2
      have hl := h.length_le
      rw [this] at hl
      simp at hl
      omega
  · have hlp := dep_pkg h0 hl
    have hpe : nm v g i ++ a <+: entryFor v g0 k l := by
      rcases h with ⟨h, _⟩ | ⟨_, h⟩
      · rw [h]
      · exact h.trans (List.dropLast_prefix _)
    have hnm : nm v g0 k = nm v g i := by
      rcases hk with rfl | hk <;> rcases hi with rfl | hi
      · rfl
      · exfalso
        rw [nm_pkg v g hi.1, List.append_assoc] at hpe
        exact root_entry_head h0 hlp List.prefix_rfl (head_of_home ((List.prefix_append _ _).trans hpe))
      · exact absurd (head_of_home (home_entry v g0 hk.1)) (haself rfl hpe)
      · have h1 : home v g i <+: entryFor v g0 k l := by
          rw [nm_pkg v g hi.1, List.append_assoc] at hpe
          exact (List.prefix_append _ _).trans hpe
        rw [nm_pkg v g hi.1, nm_pkg v g0 hk.1, (cross h0 hg hk hi (home_entry v g0 hk.1) h1).2]
    refine ⟨k, l, hk, hl, hnm, ?_⟩
    rcases h with ⟨h, he⟩ | ⟨rfl, h⟩
    · left
      rw [he, h]
      refine ⟨?_, rfl⟩
      unfold entryFor at h
      rw [hnm, List.append_cancel_left_eq] at h
      exact h
    · right
      refine ⟨rfl, ?_⟩
      rcases entry_cases (v := v) (i := k) h0 hlp with ⟨c, _, e2, _⟩ | ⟨s, x, e1, e2, e3⟩
      · exfalso
        rw [e2, hnm] at h
        have := h.length_le
        have := List.length_pos_iff.2 ha
        rw [List.length_append] at *
        omega
      · rw [e2, hnm, List.prefix_append_right_inj] at h
        refine ⟨s, x, ?_, ?_⟩
        · rcases List.prefix_concat_iff.1 (show a <+: [] ++ ['@' :: s] from h) with h | h
          · exact h
          · exact absurd (List.prefix_nil.1 h) ha
        · unfold entryFor at e1
          rw [List.append_cancel_left_eq] at e1
          exact e1

include hc ht

theorem pruned_base : Base pk v g (pruned v g t) := by
  have hsane : ∀ p r, r ≠ [] → pruned v g t (p ++ r) ≠ none → pruned v g t p = some .dir := by
    intro p r hr h
    obtain ⟨e, h⟩ := Option.ne_none_iff_exists'.1 h
    obtain ⟨h1, h2⟩ := pruned_iff.1 h
    exact pruned_iff.2 ⟨(ht _ _).2 (expected_sane h0 hr ((ht _ _).1 h1)), fun q hq => h2 q (hq.trans (List.prefix_append _ _))⟩
  have hway : ∀ i, IsPkg g i → ∀ q e, q <+: home v g i ++ [nmWord] → t q = some e → e = .dir := by
    intro i hi q e hq he
    rw [ht, expected_iff h0] at he
    rcases he with ⟨_, rfl⟩ | ⟨k, nd, k0, kn, ⟨r, rfl, hcon⟩ | ⟨rfl, _⟩⟩ | ⟨k, l, hk, hl, ⟨rfl, rfl⟩ | ⟨rfl, _⟩⟩
    · rfl
    · have hx : home v g i <+: home v g i ++ [nmWord] := List.prefix_append _ _
      have := (cross h0 hg ⟨k0, nd, kn⟩ hi ((List.prefix_append _ _).trans hq) hx).2
      rw [this, List.prefix_append_right_inj] at hq
      cases r with
      | nil =>
        rw [h0.dirs k nd k0 kn] at hcon
        exact (Option.some.inj hcon).symm
      | cons c r =>
        exfalso
        obtain ⟨x, hx⟩ := hq
        simp only [List.cons_append, List.cons.injEq, List.append_eq_nil_iff] at hx
        obtain ⟨rfl, rfl, _⟩ := hx
        rw [h0.bundled k nd [] k0 kn] at hcon
        cases hcon
    · rfl
    · exfalso
      rcases hk with rfl | hk
      · have hne := entry_ne_nil (v := v) (i := 0) h0 (dep_pkg h0 hl)
        refine root_entry_head h0 (dep_pkg h0 hl) List.prefix_rfl (head_of_prefix hq hne ?_)
        rfl
      · have := (cross h0 hg hk hi ((home_entry v g0 hk.1).trans hq) (List.prefix_append _ _)).2
        have hl' := hq.length_le
        have hs := List.length_pos_iff.2 (segs_nonempty h0 (dep_pkg h0 hl))
        unfold entryFor at hl'
        rw [nm_pkg v g0 hk.1, this] at hl'
        simp only [List.length_append, List.length_singleton] at hl'
        omega
    · rfl
  refine ⟨hg, ?_, hsane, ?_, ?_, ?_⟩
  · refine pruned_iff.2 ⟨(ht _ _).2 ((expected_iff h0).2 (.inl ⟨rfl, rfl⟩)), ?_⟩
    intro q hq
    rw [List.prefix_nil.1 hq]
    refine ⟨?_, rfl⟩
    rw [Bool.eq_false_iff]
    intro h
    obtain ⟨i, j, hi, hj, h, _⟩ := removedDep_iff.1 h
    exact entry_ne_nil hg (dep_pkg hg hj) h.symm
  · intro i hi q hq
    cases h : pruned v g t q with
    | none => exact .inl rfl
    | some e => exact .inr (by rw [hway i hi q e hq (pruned_iff.1 h).1])
  · intro i j hi hj hnone
    rcases entry_cases (v := v) (i := i) hg (dep_pkg hg hj) with ⟨c, _, e2, _⟩ | ⟨s, x, e1, e2, e3⟩
    · exact .inl e2
    · right
      rw [e2]
      apply Classical.byContradiction
      intro hne
      obtain ⟨e, he⟩ := Option.ne_none_iff_exists'.1 hne
      obtain ⟨he1, he2⟩ := pruned_iff.1 he
      have hjs : nameSegs (nameOf g j) = ['@' :: s, x] := by
        unfold entryFor at e1
        rw [List.append_cancel_left_eq] at e1
        exact e1
      obtain ⟨k, l, hk, hl, hnm, h | ⟨_, s', x', ha, hs'⟩⟩ := old_nm h0 hg ht hi (by simp) (by simp [storeName]) he1
      · rcases store_form h0 (dep_pkg h0 hl) with ⟨b, _, _, _, _, f⟩ | ⟨s', x', _, _, _, _, f⟩
        · have hf := (segs_form (pkg_name h0 (dep_pkg h0 hl)).1)
          rcases hf with ⟨c, f1, _, f3, _⟩ | ⟨s', x', f1, _⟩
          · rw [nameSegs, f1] at h
            have := h.1
            simp only [List.cons.injEq, and_true] at this
            rw [← this] at f3
            exact f3 rfl
          · rw [nameSegs, f1] at h
            simp at h
        · rw [f] at h; simp at h
      · simp only [List.cons.injEq, and_true, true_and] at ha
        subst ha
        obtain ⟨nk, hnk⟩ := src_node h0 hk
        obtain ⟨ni, hni⟩ := src_node hg hi
        obtain ⟨l', hl', hn', hh'⟩ := hc.inScope k i l j nk ni s x' x hnk hni hnm hl hj hs' hjs
        have hent : entryFor v g i j = entryFor v g0 k l' := by unfold entryFor; rw [hnm, hn']
        have hT : t (entryFor v g i j) = some (.link (diff (home v g0 l') (entryFor v g i j).dropLast)) := by
          rw [ht, expected_iff h0]
          exact .inr (.inr ⟨k, l', hk, hl', .inl ⟨hent, rfl⟩⟩)
        have : pruned v g t (entryFor v g i j) = some (.link (diff (home v g0 l') (entryFor v g i j).dropLast)) := by
          refine pruned_iff.2 ⟨hT, ?_⟩
          intro q hq
          by_cases hqe : q = entryFor v g i j
          · subst hqe
            constructor
            · rw [Bool.eq_false_iff]
              intro h
              obtain ⟨i', j', hi', hj', h1, h2, _⟩ := removedDep_iff.1 h
              have := zone hg hi ((src_lt hg).1 hi') (dep_pkg hg hj') (segs_nonempty hg (dep_pkg hg hj)) (segs_head' hg (dep_pkg hg hj)) (v := v) (by rw [← h1, entryFor])
              subst this
              unfold entryFor at h1
              rw [List.append_cancel_left_eq] at h1
              rw [nameSegs, ← h1, ← nameSegs, hjs] at h2
              simp at h2
            · rcases hi with rfl | hi
              · rw [e1, nm_root]
                simp [removedStore, storeName]
              · have := home_not_removedStore hg hi (t := t) (q := entryFor v g i j) (r := nmWord :: nameSegs (nameOf g j)) (by rw [entryFor, nm_pkg v g hi.1]; simp [nameSegs]) ?_
                · exact this
                · intro s' hs''
                  have h1 : pruned v g t [storeName, '@' :: s'] = some .dir := by
                    obtain ⟨y, hy⟩ := hs''
                    refine hsane _ (y ++ [nmWord, '@' :: s]) (by simp) ?_
                    rw [← List.append_assoc, hy]
                    rw [nm_pkg v g hi.1] at he
                    rw [show home v g i ++ [nmWord, '@' :: s] = home v g i ++ [nmWord] ++ ['@' :: s] by simp, he]
                    simp
                  exact (pruned_iff.1 h1).1
          · exact he2 q (by rw [← e2]; exact prefix_dropLast hq hqe)
        rw [this] at hnone
        cases hnone
  · intro i j text hi hj hT
    obtain ⟨hT1, hT2⟩ := pruned_iff.1 hT
    have hjp := dep_pkg hg hj
    have hT1' : t (nm v g i ++ nameSegs (nameOf g j)) = some (.link text) := hT1
    obtain ⟨k, l, hk, hl, hnm, ⟨ha, he⟩ | ⟨he, _⟩⟩ := old_nm h0 hg ht hi (segs_nonempty hg hjp) (segs_head' hg hjp) hT1'
    · have hname : nameOf g j = nameOf g0 l := split_inj ha
      have hlp := dep_pkg h0 hl
      have htext : text = diff (home v g0 l) (entryFor v g0 k l).dropLast := by simpa using he
      rcases segs_form (pkg_name hg hjp).1 with ⟨c, f1, _⟩ | ⟨s, x, f1, _⟩
      · exfalso
        have := (hT2 _ List.prefix_rfl).1
        rw [Bool.eq_false_iff] at this
        apply this
        refine removedDep_iff.2 ⟨i, j, (src_lt hg).2 hi, hj, rfl, by rw [nameSegs, f1]; rfl, by rw [hT1]; simp, ?_⟩
        rw [hT1, htext]
        intro h
        have := Entry.link.inj (Option.some.inj h)
        exact diff_relative h0 hlp _ _ this
      · obtain ⟨nk, hnk⟩ := src_node h0 hk
        obtain ⟨ni, hni⟩ := src_node hg hi
        obtain ⟨l', hl', hn', hh'⟩ := hc.inScope k i l j nk ni s x x hnk hni hnm hl hj (by rw [← hname]; exact f1) f1
        have := name_dep h0 hl hl' (by rw [hn', hname])
        subst this
        refine ⟨home v g j, ?_, ?_⟩
        · have hent : entryFor v g i j = entryFor v g0 k l := by unfold entryFor; rw [hnm, hname]
          rw [htext, hent, hh']
          exact resolve_diff hg hjp _
        · obtain ⟨nl, hnl⟩ := hlp.2
          have hTd : t (home v g j) = some .dir := by
            rw [ht, expected_iff h0]
            exact .inr (.inl ⟨l, nl, hlp.1, hnl, .inr ⟨rfl, by rw [hh']⟩⟩)
          rw [(pruned_iff (e := .dir)).2]
          · simp
          · refine ⟨hTd, fun q hq => ⟨?_, ?_⟩⟩
            · rw [Bool.eq_false_iff]
              intro h
              obtain ⟨i', j', hi', hj', h1, h2, _⟩ := removedDep_iff.1 h
              subst h1
              have hne := entry_ne_nil (v := v) (i := i') hg (dep_pkg hg hj')
              rcases (src_lt hg).1 hi' with rfl | hi'
              · exact root_entry_head hg (dep_pkg hg hj') List.prefix_rfl (head_of_prefix hq hne rfl)
              · have := home_apart hg hi' hjp ((home_entry v g hi'.1).trans hq) List.prefix_rfl
                subst this
                have hl' := hq.length_le
                unfold entryFor at hl'
                rw [nm_pkg v g hi'.1] at hl'
                simp at hl'
                omega
            · refine home_not_removedStore hg hjp (r := []) (by rw [List.append_nil]; exact hq) ?_
              intro s' hs'
              rw [ht, expected_iff h0]
              exact .inr (.inl ⟨l, nl, hlp.1, hnl, .inr ⟨rfl, by rw [hh']; exact hs'⟩⟩)
    · cases he

/-- what is left of the old tree belongs to the new one -/
theorem pruned_expected {p : Loc} {e : Entry} (h : pruned v g t p = some e) : Expected pk v g p e := by
  obtain ⟨h1, h2⟩ := pruned_iff.1 h
  rw [expected_iff hg]
  rw [ht, expected_iff h0] at h1
  have way : ∀ k, IsPkg g0 k → p <+: home v g0 k → ∃ i nd, i ≠ 0 ∧ g.nodes[i]? = some nd ∧ p <+: home v g i := by
    intro k hk hp
    obtain ⟨nk, hnk⟩ := hk.2
    by_cases hs : storeName :: PSpec.splitChar '/' (dirName v g0 k) <+: p
    · obtain ⟨i, hi, _, hh⟩ := kept_store h0 hg ht hk hs (fun q hq => (h2 q hq).2)
      obtain ⟨ni, hni⟩ := hi.2
      exact ⟨i, ni, hi.1, hni, by rw [← hh]; exact hp⟩
    · obtain ⟨i, ni, i0, hni, hsc⟩ := hc.scopes k nk hk.1 hnk
      refine ⟨i, ni, i0, hni, ?_⟩
      rcases store_form h0 hk with ⟨b, _, e1, _, e2, _⟩ | ⟨s, x, y, e1, _, e2, e3⟩
      · rw [e1] at hs
        rw [e2] at hp
        match p with
        | [] => exact List.nil_prefix
        | [c] =>
          simp only [List.cons_prefix_cons] at hp
          rw [hp.1]
          exact ⟨_, rfl⟩
        | c :: d :: p =>
          simp only [List.cons_prefix_cons] at hp
          obtain ⟨rfl, rfl, _⟩ := hp
          exact absurd ⟨p, rfl⟩ hs
      · rw [e1] at hs
        rw [nameOf_eq hnk] at e3
        obtain ⟨t', ht'⟩ := hsc s x e3
        have hip : IsPkg g i := ⟨i0, ni, hni⟩
        have hform : [storeName, '@' :: s] <+: home v g i := by
          rcases store_form hg hip with ⟨b, _, _, _, _, f⟩ | ⟨s', x', y', _, _, f2, f3⟩
          · rw [nameOf_eq hni, ht'] at f; simp at f
          · rw [nameOf_eq hni, ht'] at f3
            simp only [List.cons.injEq, true_and, and_true] at f3
            rw [f2, f3.1]
            exact ⟨_, rfl⟩
        refine List.IsPrefix.trans ?_ hform
        rw [e2] at hp
        match p with
        | [] => exact List.nil_prefix
        | [c] =>
          simp only [List.cons_prefix_cons] at hp
          rw [hp.1]
          exact ⟨_, rfl⟩
        | [c, d] =>
          simp only [List.cons_prefix_cons] at hp
          obtain ⟨rfl, rfl, _⟩ := hp
          exact List.prefix_rfl
        | c :: d :: f :: p =>
          simp only [List.cons_prefix_cons] at hp
          obtain ⟨rfl, rfl, rfl, _⟩ := hp
          exact absurd ⟨p, rfl⟩ hs
  have store_home : ∀ k, storeName :: PSpec.splitChar '/' (dirName v g0 k) <+: home v g0 k := fun k => ⟨_, rfl⟩
  rcases h1 with h1 | ⟨k, nd, k0, kn, ⟨r, rfl, hcon⟩ | ⟨rfl, hw⟩⟩ | ⟨k, l, hk, hl, h1⟩
  · exact .inl h1
  · right; left
    obtain ⟨i, hi, _, hh⟩ := kept_store h0 hg ht ⟨k0, nd, kn⟩ ((store_home k).trans (List.prefix_append _ _)) (fun q hq => (h2 q hq).2)
    obtain ⟨ni, hni⟩ := hi.2
    exact ⟨i, ni, hi.1, hni, .inl ⟨r, by rw [hh], by rw [← hc.same k i nd ni k0 hi.1 kn hni hh]; exact hcon⟩⟩
  · right; left
    obtain ⟨i, ni, i0, hni, hp⟩ := way k ⟨k0, nd, kn⟩ hw
    exact ⟨i, ni, i0, hni, .inr ⟨rfl, hp⟩⟩
  · -- an entry of the old tree
    have hlp := dep_pkg h0 hl
    have hpe : p <+: entryFor v g0 k l := by
      rcases h1 with ⟨rfl, _⟩ | ⟨_, h1⟩
      · exact List.prefix_rfl
      · exact h1.trans (List.dropLast_prefix _)
    have hmatch : (k = 0 ∨ home v g0 k <+: p) → ∃ i j, Src g i ∧ j ∈ depsOf g i ∧ entryFor v g i j = entryFor v g0 k l ∧ nm v g0 k = nm v g i ∧ nameOf g j = nameOf g0 l := by
      intro hkp
      have : ∃ i, Src g i ∧ nm v g0 k = nm v g i := by
        rcases hk with rfl | hk
        · exact ⟨0, .inl rfl, rfl⟩
        · obtain ⟨i, hi, _, hh⟩ := kept_store h0 hg ht hk ((store_home k).trans (hkp.resolve_left hk.1)) (fun q hq => (h2 q hq).2)
          exact ⟨i, .inr hi, by rw [nm_pkg v g hi.1, nm_pkg v g0 hk.1, hh]⟩
      obtain ⟨i, hi, hnm⟩ := this
      obtain ⟨nk, hnk⟩ := src_node h0 hk
      obtain ⟨ni, hni⟩ := src_node hg hi
      obtain ⟨j, hj, hn⟩ := hc.kept k i l nk ni hnk hni hnm hl
      exact ⟨i, j, hi, hj, by unfold entryFor; rw [hnm, hn], hnm, hn⟩
    rcases h1 with ⟨rfl, rfl⟩ | ⟨rfl, h1⟩
    · have hkp : k = 0 ∨ home v g0 k <+: entryFor v g0 k l := by
        by_cases h : k = 0
        · exact .inl h
        · exact .inr (home_entry v g0 h)
      obtain ⟨i, j, hi, hj, hent, hnm, hn⟩ := hmatch hkp
      have hjp := dep_pkg hg hj
      right; right
      refine ⟨i, j, hi, hj, .inl ⟨hent.symm, ?_⟩⟩
      rcases segs_form (pkg_name hg hjp).1 with ⟨c, f1, _⟩ | ⟨s, x, f1, _⟩
      · exfalso
        have hT := (pruned_iff.1 h).1
        have := (h2 _ List.prefix_rfl).1
        rw [Bool.eq_false_iff] at this
        apply this
        refine removedDep_iff.2 ⟨i, j, (src_lt hg).2 hi, hj, hent.symm, by rw [nameSegs, f1]; rfl, by rw [hT]; simp, ?_⟩
        rw [hT]
        intro h
        exact diff_relative h0 hlp _ _ (Entry.link.inj (Option.some.inj h))
      · obtain ⟨nk, hnk⟩ := src_node h0 hk
        obtain ⟨ni, hni⟩ := src_node hg hi
        obtain ⟨l', hl', hn', hh'⟩ := hc.inScope k i l j nk ni s x x hnk hni hnm hl hj (by rw [← hn]; exact f1) f1
        have := name_dep h0 hl hl' (by rw [hn', hn])
        subst this
        rw [hh']
    · rcases hk with rfl | hk
      · obtain ⟨i, j, hi, hj, hent, _⟩ := hmatch (.inl rfl)
        exact .inr (.inr ⟨i, j, hi, hj, .inr ⟨rfl, by rw [hent]; exact h1⟩⟩)
      · rcases List.prefix_or_prefix_of_prefix hpe (home_entry v g0 (l := l) hk.1) with h3 | h3
        · obtain ⟨i, ni, i0, hni, hp⟩ := way k hk h3
          exact .inr (.inl ⟨i, ni, i0, hni, .inr ⟨rfl, hp⟩⟩)
        · obtain ⟨i, j, hi, hj, hent, _⟩ := hmatch (.inr h3)
          exact .inr (.inr ⟨i, j, hi, hj, .inr ⟨rfl, by rw [hent]; exact h1⟩⟩)

end

/-- nothing is in node_modules -/
theorem wiped_base (hg : Installable pk v g) : Base pk v g wiped := by
  have hn : ∀ p, p ≠ [] → wiped p = none := fun p hp => if_neg hp
  refine ⟨hg, if_pos rfl, ?_, ?_, ?_, ?_⟩
  · intro p r hr h
    exact absurd (hn _ (by simp [hr])) h
  · intro i _ q _
    by_cases h : q = []
    · exact .inr (if_pos h)
    · exact .inl (hn q h)
  · intro i j hi hj _
    by_cases h : (entryFor v g i j).dropLast = []
    · left
      rcases entry_cases (v := v) (i := i) hg (dep_pkg hg hj) with ⟨c, _, e2, _⟩ | ⟨s, x, e1, e2, e3⟩
      · exact e2
      · rw [e2] at h; simp at h
    · exact .inr (hn _ h)
  · intro i j text hi hj h
    rw [hn _ (entry_ne_nil hg (dep_pkg hg hj))] at h
    cases h

theorem new_expected (hg : Installable pk v g) {T0 : Tree} {p : Loc} {e : Entry}
    (h : New pk v g T0 (fun i => IsPkg g i) (fun i j => Src g i ∧ j ∈ depsOf g i) p e) : Expected pk v g p e := by
  rw [expected_iff hg]
  rcases h with ⟨i, nd, i0, hn, _, _, h⟩ | ⟨i, j, ⟨hi, hj⟩, _, h⟩
  · exact .inr (.inl ⟨i, nd, i0, hn, h⟩)
  · exact .inr (.inr ⟨i, j, hi, hj, h⟩)

/-- extraction into an empty node_modules -/
theorem wiped_installed (hg : Installable pk v g) {order : List Nat} (ho : Order g order) :
    ∃ y, extractAll pk v g order wiped = some y ∧ Exact pk v g y.tree := by
  obtain ⟨y, hy, hA, _⟩ := extract_all (wiped_base hg) ho
  refine ⟨y, hy, ?_⟩
  intro p e
  rw [hA.tree]
  have hn : ∀ p, p ≠ [] → wiped p = none := fun p hp => if_neg hp
  constructor
  · rintro (h | ⟨_, h⟩)
    · unfold wiped at h
      split at h
      · exact .inl ⟨by assumption, (Option.some.inj h).symm⟩
      · cases h
    · exact new_expected hg h
  · intro h
    by_cases hp : p = []
    · left
      subst hp
      rw [expected_iff hg] at h
      have : e = .dir := by
        rcases h with ⟨_, h⟩ | ⟨i, nd, i0, hnd, ⟨r, h, _⟩ | ⟨h, _⟩⟩ | ⟨k, l, hk, hl, ⟨h, _⟩ | ⟨h, _⟩⟩
        · exact h
        · simp [home] at h
        · exact h
        · exact absurd h.symm (entry_ne_nil hg (dep_pkg hg hl))
        · exact h
      rw [this]
      exact if_pos rfl
    · right
      refine ⟨hn p hp, ?_⟩
      rw [expected_iff hg] at h
      rcases h with ⟨h, _⟩ | ⟨i, nd, i0, hnd, h⟩ | ⟨k, l, hk, hl, h⟩
      · exact absurd h hp
      · exact .inl ⟨i, nd, i0, hnd, ⟨i0, nd, hnd⟩, hn _ (home_ne_nil v g i), h⟩
      · exact .inr ⟨k, l, ⟨hk, hl⟩, hn _ (entry_ne_nil hg (dep_pkg hg hl)), h⟩

/-- there is one thing at each place -/
theorem expected_fun (hg : Installable pk v g) {p : Loc} {e e' : Entry} (h : Expected pk v g p e) (h' : Expected pk v g p e') : e = e' := by
  obtain ⟨y, _, hy⟩ := wiped_installed hg (order := List.range g.nodes.length) (List.Perm.refl _)
  rw [← hy] at h h'
  rw [h] at h'
  exact Option.some.inj h'

/-- extraction into what pruning left of an installed tree -/
theorem pruned_installed {t : Tree} (h0 : Installable pk v g0) (hg : Installable pk v g) (hc : Compatible pk v g0 g) (ht : Exact pk v g0 t)
    {order : List Nat} (ho : Order g order) : ∃ y, extractAll pk v g order (pruned v g t) = some y ∧ Exact pk v g y.tree := by
  have hb := pruned_base h0 hg hc ht
  obtain ⟨y, hy, hA, _⟩ := extract_all hb ho
  refine ⟨y, hy, ?_⟩
  intro p e
  rw [hA.tree]
  constructor
  · rintro (h | ⟨_, h⟩)
    · exact pruned_expected h0 hg hc ht h
    · exact new_expected hg h
  · intro h
    cases hT : pruned v g t p with
    | some e' =>
      left
      rw [expected_fun hg h (pruned_expected h0 hg hc ht hT)]
    | none =>
      right
      refine ⟨rfl, ?_⟩
      have hgo : ∀ x, p <+: x → pruned v g t x ≠ none → False := by
        rintro x ⟨r, rfl⟩ hx
        by_cases hr : r = []
        · rw [hr, List.append_nil] at hx; exact hx hT
        · have := hb.sane p r hr hx
          rw [hT] at this; cases this
      rw [expected_iff hg] at h
      rcases h with ⟨rfl, _⟩ | ⟨i, nd, i0, hnd, h⟩ | ⟨k, l, hk, hl, h⟩
      · rw [hb.root] at hT; cases hT
      · refine .inl ⟨i, nd, i0, hnd, ⟨i0, nd, hnd⟩, ?_, h⟩
        apply Classical.byContradiction
        intro hne
        have hip : IsPkg g i := ⟨i0, nd, hnd⟩
        rcases h with ⟨r, rfl, hcon⟩ | ⟨_, hp⟩
        · -- the package was there, with its content
          obtain ⟨e1, he1⟩ := Option.ne_none_iff_exists'.1 hne
          obtain ⟨h1, h2⟩ := pruned_iff.1 he1
          have hdirs : ∀ s, [storeName, '@' :: s] <+: home v g i → t [storeName, '@' :: s] = some .dir := by
            rintro s ⟨y, hy⟩
            have hy' : y ≠ [] := by
              rintro rfl
              have := congrArg List.length hy
              rcases store_form hg hip with ⟨b, _, _, _, f, _⟩ | ⟨_, _, _, _, _, f, _⟩ <;> rw [f] at this <;> simp at this
            exact (ht _ _).2 (expected_sane h0 hy' (by rw [hy]; exact (ht _ _).1 h1))
          have : ∃ k, IsPkg g0 k ∧ home v g0 k = home v g i := by
            have h1' := (expected_iff h0).1 ((ht _ _).1 h1)
            rcases h1' with ⟨h, _⟩ | ⟨k, nk, k0, kn, ⟨r', h, _⟩ | ⟨_, h⟩⟩ | ⟨k, l, hk, hl, h⟩
            · exact absurd h (home_ne_nil v g i)
            · exact ⟨k, ⟨k0, nk, kn⟩, (cross h0 hg ⟨k0, nk, kn⟩ hip (x := home v g i) (by rw [h]; exact List.prefix_append _ _) List.prefix_rfl).2⟩
            · exact ⟨k, ⟨k0, nk, kn⟩, (cross h0 hg ⟨k0, nk, kn⟩ hip (x := home v g0 k) List.prefix_rfl h).2⟩
            · have hpe : home v g i <+: entryFor v g0 k l := by
                rcases h with ⟨h, _⟩ | ⟨_, h⟩
                · rw [h]
                · exact h.trans (List.dropLast_prefix _)
              rcases hk with rfl | hk
              · exact absurd rfl (root_entry_head h0 (dep_pkg h0 hl) hpe)
              · exact ⟨k, hk, (cross h0 hg hk hip (home_entry v g0 hk.1) hpe).2⟩
          obtain ⟨k, ⟨k0, nk, kn⟩, hh⟩ := this
          have hT' : t (home v g i ++ r) = some e := by
            rw [ht, expected_iff h0]
            exact .inr (.inl ⟨k, nk, k0, kn, .inl ⟨r, by rw [hh], by rw [hc.same k i nk nd k0 i0 kn hnd hh]; exact hcon⟩⟩)
          have : pruned v g t (home v g i ++ r) = some e := by
            refine pruned_iff.2 ⟨hT', fun q hq => ⟨?_, home_not_removedStore hg hip hq hdirs⟩⟩
            rw [Bool.eq_false_iff]
            intro h
            obtain ⟨i', j', hi', hj', h1, h2, _⟩ := removedDep_iff.1 h
            subst h1
            have hne := entry_ne_nil (v := v) (i := i') hg (dep_pkg hg hj')
            rcases (src_lt hg).1 hi' with rfl | hi'
            · exact root_entry_head hg (dep_pkg hg hj') List.prefix_rfl (head_of_prefix hq hne rfl)
            · have := home_apart hg hi' hip ((home_entry v g hi'.1).trans hq) (List.prefix_append _ _)
              subst this
              unfold entryFor at hq
              rw [nm_pkg v g hi'.1, List.append_assoc, List.prefix_append_right_inj] at hq
              obtain ⟨x, rfl⟩ := hq
              have hb' := hg.bundled i' nd (PSpec.splitChar '/' (nameOf g j') ++ x) hi'.1 hnd
              rw [List.append_assoc, List.singleton_append, hb'] at hcon
              cases hcon
          rw [hT] at this; cases this
        · exact hgo _ hp hne
      · refine .inr ⟨k, l, ⟨hk, hl⟩, ?_, h⟩
        apply Classical.byContradiction
        intro hne
        refine hgo (entryFor v g k l) ?_ hne
        rcases h with ⟨rfl, _⟩ | ⟨_, h⟩
        · exact List.prefix_rfl
        · exact h.trans (List.dropLast_prefix _)

end
end Iso
end Oro
