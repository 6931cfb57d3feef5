import Verif.Proofs.IsolatedUpdate
/-
The folders for commands, and what they do not influence.
-/
set_option linter.unusedSectionVars false
namespace Oro
namespace Iso
open Hoisted (Entry Tree Pkgs Disk storeName binName wiped unpack below dirsAbove)
variable {P S V I : Type}

section
variable {pk : Pkgs P} {v : Env} {g : Graph Str P S}

/-! ### where they are -/

theorem inBin_up {p : Loc} (h : InBin p) (r : Loc) : InBin (p ++ r) := by
  cases h with
  | project x => exact .project (x ++ r)
  | package a n x h1 h2 h3 =>
    have := InBin.package a n (x ++ r) h1 h2 h3
    simpa using this
  | scope a s n x h1 =>
    have := InBin.scope a s n (x ++ r) h1
    simpa using this

theorem inBin_prefix {p q : Loc} (hq : ¬ InBin q) (h : p <+: q) : ¬ InBin p := by
  obtain ⟨r, rfl⟩ := h
  exact fun hp => hq (inBin_up hp r)

theorem notBin_nil : ¬ InBin [] := by intro h; cases h

theorem first_nm {u a w w' : Loc} (hu : nmWord ∉ u) (ha : nmWord ∉ a) (h : u ++ nmWord :: w = a ++ nmWord :: w') : u = a ∧ w = w' := by
  induction u generalizing a with
  | nil =>
    cases a with
    | nil => simpa using h
    | cons y a => simp only [List.nil_append, List.cons_append, List.cons.injEq] at h; exact absurd (by simp [h.1]) ha
  | cons x u ih =>
    cases a with
    | nil => simp only [List.nil_append, List.cons_append, List.cons.injEq] at h; exact absurd (by simp [h.1]) hu
    | cons y a =>
      simp only [List.cons_append, List.cons.injEq] at h
      obtain ⟨h1, h2⟩ := ih (fun hx => hu (by simp [hx])) (fun hx => ha (by simp [hx])) h.2
      exact ⟨by rw [h.1, h1], h2⟩

theorem nameSegs_single {g : Graph Str P S} {i : Nat} (hn : FolderName (nameOf g i)) (h : nameSegs (nameOf g i) = [nameOf g i]) :
    (nameOf g i).head? ≠ some '@' ∧ nameOf g i ≠ nmWord := by
  rcases segs_form hn with ⟨c, _, rfl, h3, h4, _⟩ | ⟨s, t, h1, _⟩
  · exact ⟨h3, h4⟩
  · rw [nameSegs, h1] at h; simp at h

/-- in a package -/
theorem inBin_home (hg : Installable pk v g) {i : Nat} (hi : IsPkg g i) (r : Loc) : InBin (home v g i ++ r) ↔ [nmWord, binName] <+: r := by
  have hat : ∀ s : Str, '@' :: s ≠ nmWord := by intro s; simp [nmWord]
  have hsb : storeName ≠ binName := by decide
  rcases store_form hg hi with ⟨b, hb, e1, hbn, e2, e3⟩ | ⟨s, t, x, e1, hx, e2, e3⟩
  · obtain ⟨n1, n2⟩ := nameSegs_single (pkg_name hg hi).1 e3
    rw [e2]
    constructor
    · intro h
      generalize hp : [storeName, b, nmWord, nameOf g i] ++ r = p at h
      cases h with
      | project x => simp at hp; exact absurd hp.1 hsb
      | package a n x h1 h2 h3 =>
        simp only [List.cons_append, List.nil_append, List.cons.injEq, true_and] at hp
        have := first_nm (u := [b]) (by simpa using hbn.symm) h1 hp
        simp only [List.cons.injEq] at this
        rw [this.2.2]
        exact ⟨x, rfl⟩
      | scope a s n x h1 =>
        simp only [List.cons_append, List.nil_append, List.cons.injEq, true_and] at hp
        have := first_nm (u := [b]) (by simpa using hbn.symm) h1 hp
        simp only [List.cons.injEq] at this
        rw [this.2.1] at n1
        exact absurd rfl n1
    · rintro ⟨x, rfl⟩
      exact .package [b] _ x (by simpa using hbn.symm) n1 n2
  · rw [e2]
    have hu : nmWord ∉ ['@' :: s, x] := by
      simp only [List.mem_cons, List.not_mem_nil, or_false, not_or]
      exact ⟨(hat s).symm, hx.symm⟩
    constructor
    · intro h
      generalize hp : [storeName, '@' :: s, x, nmWord, '@' :: s, t] ++ r = p at h
      cases h with
      | project x => simp at hp; exact absurd hp.1 hsb
      | package a n y h1 h2 h3 =>
        simp only [List.cons_append, List.nil_append, List.cons.injEq, true_and] at hp
        have := first_nm (u := ['@' :: s, x]) hu h1 hp
        simp only [List.cons.injEq] at this
        rw [← this.2.1] at h2
        exact absurd rfl h2
      | scope a s' n y h1 =>
        simp only [List.cons_append, List.nil_append, List.cons.injEq, true_and] at hp
        have := first_nm (u := ['@' :: s, x]) hu h1 hp
        simp only [List.cons.injEq] at this
        rw [this.2.2.2]
        exact ⟨y, rfl⟩
    · rintro ⟨y, rfl⟩
      exact .scope ['@' :: s, x] s t y hu

theorem notBin_home (hg : Installable pk v g) {i : Nat} (hi : IsPkg g i) : ¬ InBin (home v g i) := by
  have := inBin_home hg hi []
  rw [List.append_nil] at this
  rw [this]
  simp

/-- in the project -/
theorem inBin_top {c : Str} (r : Loc) (h : c ≠ storeName) : InBin (c :: r) ↔ c = binName := by
  constructor
  · intro hb
    generalize hp : c :: r = p at hb
    cases hb with
    | project x => exact (List.cons.inj hp).1
    | package => exact absurd (List.cons.inj hp).1 h
    | scope => exact absurd (List.cons.inj hp).1 h
  · rintro rfl
    exact .project r

theorem segs_ne_bin (hg : Installable pk v g) {j : Nat} (hj : IsPkg g j) : ∃ c x, PSpec.splitChar '/' (nameOf g j) = c :: x ∧ c ≠ binName ∧ c ≠ storeName := by
  obtain ⟨h1, h2⟩ := pkg_name hg hj
  obtain ⟨j0, nd, hn⟩ := hj
  have h3 := hg.noBin j nd j0 hn
  rw [← nameOf_eq hn] at h3
  rcases segs_form h1 with ⟨c, e, rfl, _⟩ | ⟨s, t, e, _⟩
  · exact ⟨_, [], e, h3, h2⟩
  · exact ⟨_, _, e, by simp [binName], by simp [storeName]⟩

theorem notBin_nm (hg : Installable pk v g) {i : Nat} (hi : Src g i) {c : Str} (h1 : c ≠ binName) (h2 : c ≠ storeName) (r : Loc) : ¬ InBin (nm v g i ++ c :: r) := by
  rcases hi with rfl | hi
  · rw [nm_root, List.nil_append, inBin_top r h2]; exact h1
  · rw [nm_pkg v g hi.1, List.append_assoc, inBin_home hg hi]
    simp only [List.singleton_append, List.cons_prefix_cons, List.nil_prefix, true_and, and_true]
    exact h1.symm

theorem inBin_nm (hg : Installable pk v g) {i : Nat} (hi : Src g i) (r : Loc) : InBin (nm v g i ++ binName :: r) := by
  rcases hi with rfl | hi
  · exact .project r
  · rw [nm_pkg v g hi.1, List.append_assoc, inBin_home hg hi]
    exact ⟨r, rfl⟩

theorem notBin_entry (hg : Installable pk v g) {i j : Nat} (hi : Src g i) (hj : IsPkg g j) : ¬ InBin (entryFor v g i j) := by
  obtain ⟨c, x, e, h1, h2⟩ := segs_ne_bin hg hj
  unfold entryFor
  rw [e]
  exact notBin_nm hg hi h1 h2 x

/-- nothing that should be there is in such a folder -/
theorem expected_notBin (hg : Installable pk v g) {p : Loc} {e : Entry} (h : Expected pk v g p e) : ¬ InBin p := by
  rw [expected_iff hg] at h
  rcases h with ⟨rfl, _⟩ | ⟨i, nd, i0, hn, ⟨r, rfl, hr⟩ | ⟨_, h⟩⟩ | ⟨k, l, hk, hl, ⟨rfl, _⟩ | ⟨_, h⟩⟩
  · exact notBin_nil
  · rw [inBin_home hg ⟨i0, nd, hn⟩]
    rintro ⟨x, rfl⟩
    have := hg.bundled i nd (binName :: x) i0 hn
    rw [show [nmWord, binName] ++ x = nmWord :: binName :: x from rfl, this] at hr
    cases hr
  · exact inBin_prefix (notBin_home hg ⟨i0, nd, hn⟩) h
  · exact notBin_entry hg hk (dep_pkg hg hl)
  · exact inBin_prefix (notBin_entry hg hk (dep_pkg hg hl)) (h.trans (List.dropLast_prefix _))

open Classical in
/-- the tree without commands -/
noncomputable def strip (t : Tree) : Tree := fun p => if InBin p then none else t p

theorem strip_of {t : Tree} {p : Loc} (h : ¬ InBin p) : strip t p = t p := by unfold strip; rw [if_neg h]

theorem exact_strip (hg : Installable pk v g) {t : Tree} (h : Installed pk v g t) : Exact pk v g (strip t) := by
  intro p e
  by_cases hb : InBin p
  · unfold strip
    rw [if_pos hb]
    constructor
    · intro hx; cases hx
    · intro hx; exact absurd hb (expected_notBin hg hx)
  · rw [strip_of hb]; exact h p hb e

theorem installed_of_exact {t : Tree} (h : Exact pk v g t) : Installed pk v g t := fun p _ e => h p e

/-! ### trees that differ only in commands -/

/-- the trees agree outside the folders for commands -/
def Rel (t t' : Tree) : Prop := ∀ p, ¬ InBin p → t p = t' p

/-- the links outside lead outside -/
def Good (v : Env) (t : Tree) : Prop := ∀ p text q, ¬ InBin p → t p = some (.link text) → resolve v p.dropLast text = some q → ¬ InBin q

theorem rel_strip (t : Tree) : Rel t (strip t) := fun _ h => (strip_of h).symm

theorem installed_rel {t t' : Tree} (h : Rel t t') (h' : Installed pk v g t') : Installed pk v g t := fun p hp e => by rw [h p hp]; exact h' p hp e

theorem good_exact (hg : Installable pk v g) {t : Tree} (h : Installed pk v g t) : Good v t := by
  intro p text q hp ht hr
  rw [h p hp, expected_iff hg] at ht
  rcases ht with ⟨_, h⟩ | ⟨i, nd, i0, hn, ⟨r, _, h⟩ | ⟨h, _⟩⟩ | ⟨k, l, hk, hl, ⟨rfl, h⟩ | ⟨h, _⟩⟩
  · cases h
  · exact absurd h (hg.noLinks i nd r text i0 hn)
  · cases h
  · cases h
    rw [resolve_diff hg (dep_pkg hg hl)] at hr
    cases hr
    exact notBin_home hg (dep_pkg hg hl)
  · cases h

theorem good_mono {t t' : Tree} (h : ∀ p text, ¬ InBin p → t' p = some (.link text) → t p = some (.link text)) (hg : Good v t) : Good v t' :=
  fun p text q hp ht hr => hg p text q hp (h p text hp ht) hr

theorem any_inits_congr {f f' : Loc → Bool} {p : Loc} (hp : ¬ InBin p) (h : ∀ q, ¬ InBin q → f q = f' q) : p.inits.any f = p.inits.any f' := by
  rw [Bool.eq_iff_iff, List.any_eq_true, List.any_eq_true]
  constructor <;> rintro ⟨q, hq, hx⟩ <;> refine ⟨q, hq, ?_⟩
  · rw [← h q (inBin_prefix hp ((List.mem_inits _ _).1 hq))]; exact hx
  · rw [h q (inBin_prefix hp ((List.mem_inits _ _).1 hq))]; exact hx

theorem removedDep_rel {t t' : Tree} (h : Rel t t') {q : Loc} (hq : ¬ InBin q) : removedDep v g t q = removedDep v g t' q := by
  unfold removedDep badDep
  rw [h q hq]

theorem removedStore_rel {t t' : Tree} (h : Rel t t') {q : Loc} (hq : ¬ InBin q) : removedStore v g t q = removedStore v g t' q := by
  rcases q with _ | ⟨a, _ | ⟨s, _ | ⟨s', _ | _⟩⟩⟩
  · rfl
  · rfl
  · simp only [removedStore]; rw [h _ hq]
  · have : ¬ InBin [a, s] := inBin_prefix hq ⟨[s'], rfl⟩
    simp only [removedStore]; rw [h _ this]
  · rfl

theorem pruned_rel {t t' : Tree} (h : Rel t t') : Rel (pruned v g t) (pruned v g t') := by
  intro p hp
  unfold pruned
  rw [any_inits_congr hp (f := fun q => removedDep v g t q || removedStore v g t q) (f' := fun q => removedDep v g t' q || removedStore v g t' q)
    (fun q hq => by rw [removedDep_rel h hq, removedStore_rel h hq]), h p hp]

theorem prune_rel {d d' : Disk V I} (hm : d.metaFile = d'.metaFile) (h : Rel d.tree d'.tree) : Rel (prune v g d) (prune v g d') := by
  unfold prune
  have hs : ¬ InBin [storeName] := by
    intro hx
    generalize hp : [storeName] = p at hx
    cases hx <;> simp at hp
    exact absurd hp.1 (by decide)
  rw [h [] notBin_nil, hm, h [storeName] hs]
  split
  · exact h
  · split
    · exact fun _ _ => rfl
    · exact pruned_rel h

/-- both fail, or both succeed with related results -/
def ORel {α β : Type} (R : α → β → Prop) (a : Option α) (b : Option β) : Prop :=
  (a = none ∧ b = none) ∨ ∃ x y, a = some x ∧ b = some y ∧ R x y

theorem ORel.bind {α β α' β' : Type} {R : α → β → Prop} {R' : α' → β' → Prop} {a : Option α} {b : Option β} {f : α → Option α'} {f' : β → Option β'}
    (h : ORel R a b) (hf : ∀ x y, R x y → ORel R' (f x) (f' y)) : ORel R' (a.bind f) (b.bind f') := by
  rcases h with ⟨rfl, rfl⟩ | ⟨x, y, rfl, rfl, hr⟩
  · exact .inl ⟨rfl, rfl⟩
  · exact hf x y hr

theorem ORel.fold {α β γ : Type} {R : α → β → Prop} {f : α → γ → Option α} {f' : β → γ → Option β} {l : List γ}
    (hf : ∀ c ∈ l, ∀ x y, R x y → ORel R (f x c) (f' y c)) : ∀ {a b}, ORel R a b →
      ORel R (l.foldl (fun x c => x.bind fun x => f x c) a) (l.foldl (fun x c => x.bind fun x => f' x c) b) := by
  induction l with
  | nil => intro a b h; exact h
  | cons c l ih =>
    intro a b h
    rw [List.foldl_cons, List.foldl_cons]
    exact ih (fun c' hc' => hf c' (List.mem_cons_of_mem _ hc')) (h.bind (hf c List.mem_cons_self))

/-- trees and caches -/
def RelC (v : Env) (x y : Tree × List Loc) : Prop := Rel x.1 y.1 ∧ Good v y.1 ∧ x.2 = y.2 ∧ ∀ c ∈ y.2, ¬ InBin c

theorem inits_notBin {p q : Loc} (hp : ¬ InBin p) (h : q ∈ p.inits) : ¬ InBin q := inBin_prefix hp ((List.mem_inits _ _).1 h)

theorem mkdirp_rel {x y : Tree × List Loc} (h : RelC v x y) {p : Loc} (hp : ¬ InBin p) :
    ORel (RelC v) (mkdirp x.1 x.2 p) (mkdirp y.1 y.2 p) := by
  obtain ⟨h1, h2, h3, h4⟩ := h
  unfold mkdirp
  rw [h3, h1 p hp, any_inits_congr hp (f := fun q => decide (x.1 q ≠ none) && decide (x.1 q ≠ some .dir))
    (f' := fun q => decide (y.1 q ≠ none) && decide (y.1 q ≠ some .dir)) (fun q hq => by rw [h1 q hq])]
  split
  · exact .inr ⟨_, _, rfl, rfl, h1, h2, rfl, h4⟩
  · split
    · split
      · refine .inr ⟨_, _, rfl, rfl, ?_, ?_, rfl, ?_⟩
        · intro q hq
          show put x.1 p .dir q = put y.1 p .dir q
          unfold put
          rw [h1 q hq]
        · refine good_mono (fun q text _ hl => ?_) h2
          have hl : put y.1 p .dir q = some (.link text) := hl
          unfold put at hl
          split at hl
          · cases hl
          · exact hl
        · intro c hc
          rcases List.mem_cons.1 hc with rfl | hc
          · exact hp
          · exact h4 c hc
      · exact .inl ⟨rfl, rfl⟩
    · split
      · exact .inl ⟨rfl, rfl⟩
      · refine .inr ⟨_, _, rfl, rfl, ?_, ?_, rfl, ?_⟩
        · intro q hq
          show (if q ∈ p.inits ∧ x.1 q = none then some Entry.dir else x.1 q) = if q ∈ p.inits ∧ y.1 q = none then some Entry.dir else y.1 q
          rw [h1 q hq]
        · refine good_mono (fun q text _ hl => ?_) h2
          have hl : (if q ∈ p.inits ∧ y.1 q = none then some Entry.dir else y.1 q) = some (.link text) := hl
          split at hl
          · cases hl
          · exact hl
        · intro c hc
          rcases List.mem_append.1 hc with hc | hc
          · exact inits_notBin hp hc
          · exact h4 c hc

theorem existsAt_rel {t t' : Tree} (h : Rel t t') (hG : Good v t') {p : Loc} (hp : ¬ InBin p) : existsAt v t p = existsAt v t' p := by
  unfold existsAt
  rw [h p hp]
  cases he : t' p with
  | none => rfl
  | some e =>
    cases e with
    | dir => rfl
    | file c => rfl
    | link text =>
      dsimp only
      cases hr : resolve v p.dropLast text with
      | none => rfl
      | some q => dsimp only; rw [h q (hG p text q hp he hr)]

theorem linkDep_rel (hg : Installable pk v g) {i j : Nat} (hi : Src g i) (hj : IsPkg g j) {x y : Tree × List Loc} (h : RelC v x y) :
    ORel (RelC v) (linkDep v g i x j) (linkDep v g i y j) := by
  have he := notBin_entry hg hi hj
  unfold linkDep
  rw [existsAt_rel h.1 h.2.1 he]
  split
  · exact .inr ⟨x, y, rfl, rfl, h⟩
  · have hm := mkdirp_rel h (inBin_prefix he (List.dropLast_prefix _))
    rcases hm with ⟨e1, e2⟩ | ⟨a, b, e1, e2, h1, h2, h3, h4⟩
    · rw [e1, e2]; exact .inl ⟨rfl, rfl⟩
    · rw [e1, e2, Option.map_some, Option.map_some, h1 _ he]
      refine .inr ⟨_, _, rfl, rfl, ?_⟩
      split
      · refine ⟨?_, ?_, h3, h4⟩
        · intro q hq
          show put a.1 _ _ q = put b.1 _ _ q
          unfold put
          rw [h1 q hq]
        · intro q text r hq hl hr
          have hl : put b.1 _ _ q = some (.link text) := hl
          unfold put at hl
          by_cases hqe : q = entryFor v g i j
          · subst hqe
            rw [if_pos rfl] at hl
            cases hl
            rw [resolve_diff hg hj] at hr
            cases hr
            exact notBin_home hg hj
          · rw [if_neg hqe] at hl
            exact h2 q text r hq hl hr
      · exact ⟨h1, h2, h3, h4⟩

/-- states of extraction -/
def RelX (v : Env) (x y : Ext) : Prop := RelC v (x.tree, x.cache) (y.tree, y.cache) ∧ x.rebuild = y.rebuild ∧ x.bins = y.bins

theorem unpack_rel (hg : Installable pk v g) {i : Nat} {nd : Node Str P S} (h0 : i ≠ 0) (hn : g.nodes[i]? = some nd) {t t' : Tree} (h : Rel t t') (hG : Good v t')
    {d : Loc} (hd : ¬ InBin d) : ORel (fun a b => Rel a b ∧ Good v b) (unpack (pk.content nd.pkg) t d) (unpack (pk.content nd.pkg) t' d) := by
  unfold unpack
  have hb : Hoisted.blocked t d = Hoisted.blocked t' d := by
    unfold Hoisted.blocked
    rw [Bool.eq_iff_iff, List.any_eq_true, List.any_eq_true]
    constructor <;> rintro ⟨k, hk, hx⟩ <;> refine ⟨k, hk, ?_⟩
    · rw [← h _ (inBin_prefix hd (List.take_prefix k d))]; exact hx
    · rw [h _ (inBin_prefix hd (List.take_prefix k d))]; exact hx
  rw [hb]
  split
  · exact .inl ⟨rfl, rfl⟩
  · refine .inr ⟨_, _, rfl, rfl, ?_, ?_⟩
    · intro p hp
      dsimp only
      cases (below d p).bind (pk.content nd.pkg) with
      | some e => rfl
      | none => dsimp only; unfold dirsAbove; rw [h p hp]
    · refine good_mono (fun p text hp hl => ?_) hG
      cases hx : (below d p).bind (pk.content nd.pkg) with
      | some e =>
        rw [hx] at hl
        dsimp only at hl
        cases hl
        obtain ⟨r, _, hr⟩ := Option.bind_eq_some_iff.1 hx
        exact absurd hr (hg.noLinks i nd r text h0 hn)
      | none =>
        rw [hx] at hl
        dsimp only at hl
        unfold dirsAbove at hl
        split at hl
        · cases hl
        · exact hl

theorem placeNode_rel (hg : Installable pk v g) {i : Nat} {x y : Ext} (h : RelX v x y) : ORel (RelX v) (placeNode pk v g x i) (placeNode pk v g y i) := by
  unfold placeNode
  split
  · exact .inr ⟨x, y, rfl, rfl, h⟩
  · rename_i h0
    cases hn : g.nodes[i]? with
    | none => exact .inr ⟨x, y, rfl, rfl, h⟩
    | some nd =>
      dsimp only
      have hh := notBin_home hg ⟨h0, nd, hn⟩
      obtain ⟨⟨h1, h2, h3, h4⟩, h5, h6⟩ := h
      dsimp only at h1 h2 h3 h4
      rw [h1 _ hh]
      split
      · exact .inr ⟨x, y, rfl, rfl, ⟨h1, h2, h3, h4⟩, h5, h6⟩
      · rcases unpack_rel hg h0 hn h1 h2 hh with ⟨e1, e2⟩ | ⟨a, b, e1, e2, k1, k2⟩
        · rw [e1, e2]; exact .inl ⟨rfl, rfl⟩
        · rw [e1, e2, Option.map_some, Option.map_some]
          refine .inr ⟨_, _, rfl, rfl, ⟨k1, k2, h3, h4⟩, ?_, ?_⟩
          · dsimp only; rw [h5]
          · dsimp only; rw [h6]

theorem extractNode_rel (hg : Installable pk v g) {i : Nat} (hi : Src g i) {x y : Ext} (h : RelX v x y) :
    ORel (RelX v) (extractNode pk v g x i) (extractNode pk v g y i) := by
  unfold extractNode
  refine (placeNode_rel hg h).bind fun a b hab => ?_
  have hl : ORel (RelC v) (linkDeps v g i (a.tree, a.cache)) (linkDeps v g i (b.tree, b.cache)) := by
    unfold linkDeps
    exact ORel.fold (fun j hj x y hxy => linkDep_rel hg hi (dep_pkg hg hj) hxy) (.inr ⟨_, _, rfl, rfl, hab.1⟩)
  rcases hl with ⟨e1, e2⟩ | ⟨z, w, e1, e2, k⟩
  · rw [e1, e2]; exact .inl ⟨rfl, rfl⟩
  · rw [e1, e2]
    exact .inr ⟨_, _, rfl, rfl, k, hab.2⟩

/-- extraction into trees that differ only in commands -/
theorem extractAll_rel (hg : Installable pk v g) {order : List Nat} (ho : Order g order) {t t' : Tree} (h : Rel t t') (hG : Good v t') :
    ORel (RelX v) (extractAll pk v g order t) (extractAll pk v g order t') := by
  unfold extractAll
  rw [h [] notBin_nil]
  split
  · exact .inl ⟨rfl, rfl⟩
  · refine ORel.fold (f := extractNode pk v g) (f' := extractNode pk v g) (fun i hi x y hxy => extractNode_rel hg ?_ hxy) (.inr ⟨_, _, rfl, rfl, ⟨?_, ?_, rfl, ?_⟩, rfl, rfl⟩)
    · rw [ho.mem_iff, List.mem_range] at hi
      by_cases h0 : i = 0
      · exact .inl h0
      · exact .inr ⟨h0, _, List.getElem?_eq_getElem hi⟩
    · intro q hq
      show put t [] .dir q = put t' [] .dir q
      unfold put
      rw [h q hq]
    · refine good_mono (fun q text _ hl => ?_) hG
      have hl : put t' [] .dir q = some (.link text) := hl
      unfold put at hl
      split at hl
      · cases hl
      · exact hl
    · intro c hc
      rw [List.mem_singleton.1 hc]
      exact notBin_nil

theorem good_prune {d : Disk V I} (h : Good v d.tree) : Good v (prune v g d) := by
  refine good_mono (fun p text _ hl => ?_) h
  unfold prune at hl
  split at hl
  · exact hl
  · split at hl
    · unfold wiped at hl
      split at hl <;> cases hl
    · unfold pruned at hl
      split at hl
      · cases hl
      · exact hl

/-- installing into disks that differ only in commands -/
theorem install_rel (hg : Installable pk v g) {order : List Nat} (ho : Order g order) {d d' : Disk V I} (hm : d.metaFile = d'.metaFile)
    (h : Rel d.tree d'.tree) (hG : Good v d'.tree) : ORel (RelX v) (install pk v g order d) (install pk v g order d') :=
  extractAll_rel hg ho (prune_rel hm h) (good_prune hG)

/-! ### looking things up -/

theorem leadsTo_rel {t t' : Tree} (h : Rel t t') (hG : Good v t') {p : Loc} (hp : ¬ InBin p) : leadsTo v t p = leadsTo v t' p := by
  unfold leadsTo
  rw [h p hp]
  cases he : t' p with
  | none => rfl
  | some e =>
    cases e with
    | dir => rfl
    | file c => rfl
    | link text =>
      dsimp only
      cases hr : resolve v p.dropLast text with
      | none => rfl
      | some q => rw [Option.bind_some, Option.bind_some, h q (hG p text q hp he hr)]

/-! ### commands are not touched -/

/-- the same commands -/
def Keeps (t t' : Tree) : Prop := ∀ p, InBin p → t' p = t p

theorem Keeps.trans {a b c : Tree} (h : Keeps a b) (h' : Keeps b c) : Keeps a c := fun p hp => (h' p hp).trans (h p hp)

theorem keeps_put (t : Tree) {p : Loc} (hp : ¬ InBin p) (e : Entry) : Keeps t (put t p e) := by
  intro q hq
  unfold put
  rw [if_neg]
  rintro rfl
  exact hp hq

theorem keeps_mkdirp {t : Tree} {cache : List Loc} {p : Loc} (hp : ¬ InBin p) {y : Tree × List Loc} (h : mkdirp t cache p = some y) : Keeps t y.1 := by
  unfold mkdirp at h
  split at h
  · cases h; exact fun _ _ => rfl
  · split at h
    · split at h
      · cases h; exact keeps_put t hp .dir
      · cases h
    · split at h
      · cases h
      · cases h
        intro q hq
        exact if_neg fun hx => inits_notBin hp hx.1 hq

theorem keeps_linkDep (hg : Installable pk v g) {i j : Nat} (hi : Src g i) (hj : IsPkg g j) {x y : Tree × List Loc} (h : linkDep v g i x j = some y) :
    Keeps x.1 y.1 := by
  have he := notBin_entry hg hi hj
  unfold linkDep at h
  split at h
  · cases h; exact fun _ _ => rfl
  · obtain ⟨z, hz, rfl⟩ := Option.map_eq_some_iff.1 h
    have := keeps_mkdirp (inBin_prefix he (List.dropLast_prefix _)) hz
    split
    · exact this.trans (keeps_put _ he _)
    · exact this

theorem fold_bind_none {α γ : Type} {f : α → γ → Option α} (l : List γ) : l.foldl (fun x c => x.bind fun x => f x c) none = none := by
  induction l with
  | nil => rfl
  | cons c l ih => exact ih

theorem fold_bind {α γ : Type} {f : α → γ → Option α} {R : α → α → Prop} (hr : ∀ a, R a a) (ht : ∀ a b c, R a b → R b c → R a c) :
    ∀ {l : List γ}, (∀ c ∈ l, ∀ x y, f x c = some y → R x y) → ∀ {a b}, l.foldl (fun x c => x.bind fun x => f x c) (some a) = some b → R a b := by
  intro l
  induction l with
  | nil => intro _ a b h; cases h; exact hr a
  | cons c l ih =>
    intro hf a b h
    rw [List.foldl_cons, Option.bind_some] at h
    cases hx : f a c with
    | none => rw [hx, fold_bind_none] at h; cases h
    | some x =>
      rw [hx] at h
      exact ht _ _ _ (hf c List.mem_cons_self _ _ hx) (ih (fun c' hc' => hf c' (List.mem_cons_of_mem _ hc')) h)

theorem keeps_place (hg : Installable pk v g) {i : Nat} {x y : Ext} (h : placeNode pk v g x i = some y) : Keeps x.tree y.tree := by
  unfold placeNode at h
  split at h
  · cases h; exact fun _ _ => rfl
  · rename_i h0
    cases hn : g.nodes[i]? with
    | none => rw [hn] at h; cases h; exact fun _ _ => rfl
    | some nd =>
      rw [hn] at h
      dsimp only at h
      split at h
      · cases h; exact fun _ _ => rfl
      · obtain ⟨z, hz, rfl⟩ := Option.map_eq_some_iff.1 h
        unfold unpack at hz
        split at hz
        · cases hz
        · cases hz
          intro p hp
          dsimp only
          have hx : (below (home v g i) p).bind (pk.content nd.pkg) = none := by
            cases hb : below (home v g i) p with
            | none => rfl
            | some r =>
              have := Hoisted.below_eq_some.1 hb
              subst this
              obtain ⟨x, rfl⟩ := (inBin_home hg ⟨h0, nd, hn⟩ r).1 hp
              exact hg.bundled i nd _ h0 hn
          rw [hx]
          dsimp only
          unfold dirsAbove
          split
          · rename_i hd
            simp only [Bool.and_eq_true, List.isPrefixOf_iff_prefix] at hd
            exact absurd hp (inBin_prefix (notBin_home hg ⟨h0, nd, hn⟩) hd.1.1)
          · rfl

/-- extraction -/
theorem keeps_extract (hg : Installable pk v g) {order : List Nat} (ho : Order g order) {t : Tree} {y : Ext} (h : extractAll pk v g order t = some y) :
    Keeps t y.tree := by
  unfold extractAll at h
  split at h
  · cases h
  · refine (keeps_put t notBin_nil .dir).trans ?_
    refine fold_bind (R := fun a b : Ext => Keeps a.tree b.tree) (fun _ _ _ => rfl) (fun _ _ _ => Keeps.trans) ?_ h
    intro i hi x y hy
    have hs : Src g i := by
      rw [ho.mem_iff, List.mem_range] at hi
      by_cases h0 : i = 0
      · exact .inl h0
      · exact .inr ⟨h0, _, List.getElem?_eq_getElem hi⟩
    unfold extractNode at hy
    cases hp : placeNode pk v g x i with
    | none => rw [hp] at hy; cases hy
    | some z =>
      rw [hp, Option.bind_some] at hy
      obtain ⟨w, hw, rfl⟩ := Option.map_eq_some_iff.1 hy
      refine (keeps_place hg hp).trans ?_
      unfold linkDeps at hw
      exact fold_bind (R := fun a b : Tree × List Loc => Keeps a.1 b.1) (fun _ _ _ => rfl) (fun _ _ _ => Keeps.trans)
        (fun j hj a b hab => keeps_linkDep hg hs (dep_pkg hg hj) hab) hw

end
end Iso
end Oro
