import Verif.Proofs.Folder
import Verif.Proofs.LockGraph
set_option linter.unusedSectionVars false
namespace Oro
namespace Hoisted
variable {P S V I : Type} [DecidableEq V] [DecidableEq I] [DecidableEq S]

/-! ### names and command folders -/

/-- a name `Installable` allows -/
def InstName (n : Str) : Prop :=
  FolderName n ∧ n ≠ binName ∧ n ≠ storeName ∧ n ≠ metaName ∧ ∀ s, n ≠ '@' :: s ++ '/' :: nmWord

theorem located_inst {pk : Pkgs P} {g : Graph Str P S} (hg : Installable pk g) {i : Nat} {π : List Str}
    (hl : LocatedAt g i π) : ∀ n ∈ π, InstName n := by
  induction hl with
  | root => simp
  | @inside i p π nd hi hp _ ih =>
    have h0 := (child_of_parent hg.tree hi hp).1
    intro n hn
    rcases List.mem_append.1 hn with h | h
    · exact ih n h
    · simp only [List.mem_singleton] at h
      rw [h]; exact hg.names i nd h0 hi

def Bad (L : List Str) : Prop := ∃ q r, L = q ++ nmWord :: binName :: r

theorem bad_cons {a : Str} {L : List Str} : Bad (a :: L) ↔ (a = nmWord ∧ L.head? = some binName) ∨ Bad L := by
  constructor
  · rintro ⟨q, r, h⟩
    cases q with
    | nil => simp only [List.nil_append, List.cons.injEq] at h; left; exact ⟨h.1, by rw [h.2]; rfl⟩
    | cons b q => simp only [List.cons_append, List.cons.injEq] at h; right; exact ⟨q, r, h.2⟩
  · rintro (⟨rfl, h⟩ | ⟨q, r, rfl⟩)
    · cases L with
      | nil => cases h
      | cons b L => simp only [List.head?_cons, Option.some.injEq] at h; subst h; exact ⟨[], L, rfl⟩
    · exact ⟨a :: q, r, rfl⟩

theorem inBin_bad {p : Loc} : InBin p ↔ Bad (nmWord :: p) := by
  constructor
  · rintro ⟨q, r, rfl, h⟩
    rcases h with rfl | h
    · exact ⟨[], r, rfl⟩
    · rcases List.eq_nil_or_concat q with rfl | ⟨q', x, rfl⟩
      · cases h
      · rw [List.concat_eq_append] at *
        simp only [List.getLast?_append, List.getLast?_singleton, Option.some_or, Option.some.injEq] at h
        subst h
        exact ⟨nmWord :: q', r, by simp⟩
  · rintro ⟨q, r, h⟩
    cases q with
    | nil => simp only [List.nil_append, List.cons.injEq, true_and] at h; exact ⟨[], r, by simpa using h, .inl rfl⟩
    | cons b q =>
      simp only [List.cons_append, List.cons.injEq] at h
      exact ⟨q ++ [nmWord], r, by simp [h.2], .inr (by simp)⟩

theorem folder_head (π : List Str) : (folder π).head? ≠ some binName := by
  cases π with
  | nil => simp [folder]
  | cons n π => rw [folder_cons, List.head?_cons]; decide

theorem not_bad_folder {π : List Str} (h : ∀ n ∈ π, InstName n) : ¬ Bad (folder π) := by
  induction π with
  | nil => rintro ⟨q, r, h⟩; simp [folder] at h
  | cons n π ih =>
    have ih := ih fun m hm => h m (by simp [hm])
    obtain ⟨hn, hb, _, _, hs⟩ := h n (by simp)
    rw [folder_cons]
    rcases hn with ⟨h1, h2, h3, h4, h5⟩ | ⟨s, t, rfl, hs1, ht, ht2, ht3⟩
    · rw [nameSegs_plain h1, List.singleton_append, bad_cons, bad_cons]
      rintro (⟨_, h⟩ | ⟨h, _⟩ | h)
      · simp at h; exact hb h
      · exact h3 h
      · exact ih h
    · rw [nameSegs_scoped hs1 ht]
      simp only [List.cons_append, List.nil_append, bad_cons, List.head?_cons, Option.some.injEq]
      rintro (⟨_, h⟩ | ⟨h, _⟩ | ⟨h, _⟩ | h)
      · simp [binName] at h
      · simp [nmWord] at h
      · subst h; exact hs s rfl
      · exact ih h

theorem not_inBin_way {π : List Str} (h : ∀ n ∈ π, InstName n) {p : Loc} (hp : nmWord :: p <+: folder π) : ¬ InBin p := by
  rw [inBin_bad]
  rintro ⟨q, r, hq⟩
  obtain ⟨y, hy⟩ := hp
  exact not_bad_folder h ⟨q, r ++ y, by rw [← hy, hq]; simp⟩

/-! ### pruning -/

/-- what pruning keeps -/
def Cold (v : LockView P S V I) (g : Graph Str P S) (actual : IMap Str (LNode V I)) (n : Str) : Prop :=
  n.head? = some '@' ∨ SameTop v g actual n

theorem unchanged_iff {v : LockView P S V I} {g : Graph Str P S} (hf : FolderTree g) {actual : IMap Str (LNode V I)}
    {n : Str} (h1 : '/' ∉ n) (h2 : n ≠ nmWord) (h3 : n ≠ ['\\']) (h4 : n.head? ≠ some '@') :
    unchanged v g actual [n] = true ↔ SameTop v g actual n := by
  have hsl : n ≠ ['/'] := by rintro rfl; exact h1 (by simp)
  have hat : atStep g 0 true none [n] = ((g.child? 0 n).getD 0) := by
    rw [atStep, if_neg (by simp [h2, h3, hsl]), if_neg (by simp), if_neg h4]
    cases g.child? 0 n <;> simp [atStep]
  have hch : ∀ i, g.child? 0 n = some i ↔ ∃ nd, g.nodes[0]? = some nd ∧ nd.children.get? n = some i := by
    intro i
    unfold Graph.child?
    cases g.nodes[0]? <;> simp
  have hne : ∀ i, g.child? 0 n = some i → i ≠ 0 := by
    intro i hi
    obtain ⟨nd, a1, a2⟩ := (hch i).1 hi
    obtain ⟨c, b1, b2, _⟩ := hf.lists 0 nd n i a1 a2
    exact (child_of_parent hf b1 b2).1
  unfold unchanged nodeAtPath
  rw [hat]
  cases hc : g.child? 0 n with
  | none =>
    simp only [Option.getD_none, if_true, Option.bind_none, Bool.false_eq_true, false_iff]
    rintro ⟨nd, i, _, _, a1, a2, _⟩
    rw [(hch i).2 ⟨nd, a1, a2⟩] at hc; cases hc
  | some i =>
    simp only [Option.getD_some, if_neg (hne i hc), Option.bind_some, joinSlash]
    obtain ⟨nd, a1, a2⟩ := (hch i).1 hc
    constructor
    · intro h
      split at h
      · rename_i ideal act e1 e2
        exact ⟨nd, i, ideal, act, a1, a2, e1, e2, h⟩
      · cases h
    · rintro ⟨nd', i', ideal, act, b1, b2, b3, b4, b5⟩
      rw [a1] at b1; cases b1
      rw [a2] at b2; cases b2
      simp only [b3, b4, b5]

/-- what survives pruning under a top-level name -/
theorem survives_iff {v : LockView P S V I} {g : Graph Str P S} (hf : FolderTree g) {actual : IMap Str (LNode V I)}
    {n : Str} (hn : InstName n) {p y : Loc} (hne : p ≠ []) (hp : p <+: nameSegs n ++ y) :
    survives v g actual [] p = true ↔ Cold v g actual n := by
  obtain ⟨hn, hb, _, hm, hs⟩ := hn
  obtain ⟨z, hz⟩ := hp
  cases p with
  | nil => exact absurd rfl hne
  | cons a p =>
  rcases hn with ⟨h1, h2, h3, h4, h5⟩ | ⟨s, t, rfl, hs1, ht, ht2, ht3⟩
  · rw [nameSegs_plain h1] at hz
    simp only [List.cons_append, List.nil_append, List.cons.injEq] at hz
    obtain ⟨rfl, _⟩ := hz
    have hver : verdict v g actual [] a = if unchanged v g actual [a] then .keep else .delete := by
      unfold verdict
      rw [if_neg (by simp [hm]), if_neg h3, if_neg hb, if_neg h5, if_pos (.inl rfl)]
      rfl
    rw [survives, hver]
    unfold Cold
    rw [← unchanged_iff hf h1 h3 h4 h5]
    cases unchanged v g actual [a] <;> simp [h5]
  · rw [nameSegs_scoped hs1 ht] at hz
    simp only [List.cons_append, List.nil_append, List.cons.injEq] at hz
    obtain ⟨rfl, hz⟩ := hz
    have hver : verdict v g actual [] ('@' :: s) = .descend := by
      unfold verdict
      rw [if_neg (by simp [metaName]), if_neg (by simp [nmWord]), if_neg (by simp [binName]), if_pos (show ('@' :: s).head? = some '@' from rfl)]
    rw [survives, hver]
    have hcold : Cold v g actual ('@' :: s ++ '/' :: t) := .inl rfl
    simp only [hcold, iff_true]
    cases p with
    | nil => rfl
    | cons b p =>
      simp only [List.cons_append, List.cons.injEq] at hz
      obtain ⟨rfl, _⟩ := hz
      have hver2 : verdict v g actual ([] ++ ['@' :: s]) b = .keep := by
        unfold verdict
        rw [if_neg (by simp), if_neg (by rintro rfl; exact hs s rfl)]
        by_cases hbb : b = binName
        · rw [if_pos hbb]
        · rw [if_neg hbb, if_neg ht3, if_neg (by simp [nmWord])]
      rw [survives, hver2]

/-- the top-level name a path of an installed tree belongs to -/
theorem expected_top {pk : Pkgs P} {g : Graph Str P S} (hg : Installable pk g) {p : Loc} {e : Entry}
    (h : Expected pk g p e) : (p = [] ∧ e = .dir) ∨ (p ≠ [] ∧ ∃ n y, InstName n ∧ p <+: nameSegs n ++ y ∧
      ((∃ i nd ρ r, i ≠ 0 ∧ g.nodes[i]? = some nd ∧ LocatedAt g i (n :: ρ) ∧ nmWord :: p = folder (n :: ρ) ++ r ∧ pk.content nd.pkg r = some e) ∨
       (e = .dir ∧ ∃ i ρ, i ≠ 0 ∧ LocatedAt g i (n :: ρ) ∧ nmWord :: p <+: folder (n :: ρ)))) := by
  rcases h with ⟨i, nd, π, r, h0, hn, hl, hp, hc⟩ | ⟨rfl, rfl | ⟨i, π, h0, hl, hp⟩⟩
  · cases π with
    | nil => exact absurd (locatedAt_nil hl) h0
    | cons n ρ =>
      right
      have hp' := hp
      rw [folder_cons] at hp'
      simp only [List.cons_append, List.cons.injEq, true_and, List.append_assoc] at hp'
      refine ⟨?_, n, folder ρ ++ r, located_inst hg hl n (by simp), by rw [hp']; exact List.prefix_rfl, .inl ⟨i, nd, ρ, r, h0, hn, hl, hp, hc⟩⟩
      rintro rfl
      obtain ⟨h1, _⟩ := List.append_eq_nil_iff.1 hp'.symm
      rcases located_names hg hl n (by simp) with ⟨a1, _⟩ | ⟨s, t, rfl, a1, a2, _⟩
      · rw [nameSegs_plain a1] at h1; cases h1
      · rw [nameSegs_scoped a1 a2] at h1; cases h1
  · exact .inl ⟨rfl, rfl⟩
  · by_cases hpe : p = []
    · exact .inl ⟨hpe, rfl⟩
    cases π with
    | nil => exact absurd (locatedAt_nil hl) h0
    | cons n ρ =>
      right
      refine ⟨hpe, n, folder ρ, located_inst hg hl n (by simp), ?_, .inr ⟨rfl, i, ρ, h0, hl, hp⟩⟩
      rw [folder_cons] at hp
      obtain ⟨y, hy⟩ := hp
      simp only [List.cons_append, List.cons.injEq, true_and] at hy
      exact ⟨y, hy⟩

theorem not_expected_store {pk : Pkgs P} {g : Graph Str P S} (hg : Installable pk g) {e : Entry} :
    ¬ Expected pk g [storeName] e := by
  intro h
  rcases expected_top hg h with ⟨h, _⟩ | ⟨_, n, y, ⟨hn, _, hs, _⟩, ⟨z, hz⟩, _⟩
  · cases h
  · rcases hn with ⟨a1, _⟩ | ⟨s, t, rfl, a1, a2, _⟩
    · rw [nameSegs_plain a1] at hz
      simp only [List.cons_append, List.nil_append, List.cons.injEq] at hz
      exact hs hz.1.symm
    · rw [nameSegs_scoped a1 a2] at hz
      simp [storeName] at hz

/-- the pruned tree -/
def prunedTree (v : LockView P S V I) (g : Graph Str P S) (actual : IMap Str (LNode V I)) (t : Tree) : Tree :=
  fun p => if survives v g actual [] p then t p else none

theorem prune_eq {v : LockView P S V I} {g : Graph Str P S} {d : Disk V I} {actual : IMap Str (LNode V I)}
    (hr : d.tree [] ≠ none) (hs : d.tree [storeName] = none) (hm : d.metaFile = some actual) :
    prune v g d = ⟨prunedTree v g actual d.tree, some actual⟩ := by
  unfold prune
  rw [if_neg hr, hm]
  simp only [hs, ne_eq, not_true_eq_false, if_false]
  rfl

/-- the tree before is `g0`, and what pruning for `g1` keeps of it is the same in both -/
structure Prev (pk : Pkgs P) (v : LockView P S V I) (g0 g1 : Graph Str P S) (actual : IMap Str (LNode V I)) (t : Tree) : Prop where
  old : Installable pk g0
  new : Installable pk g1
  inst : Installed pk g0 t
  noticed : Noticed pk v g0 g1 actual

section
variable {pk : Pkgs P} {v : LockView P S V I} {g0 g1 : Graph Str P S} {actual : IMap Str (LNode V I)} {t : Tree}

theorem not_inBin_nil : ¬ InBin [] := by rintro ⟨q, r, h, _⟩; simp at h

theorem Prev.root (h : Prev pk v g0 g1 actual t) : t [] = some .dir :=
  (h.inst [] not_inBin_nil .dir).2 (.inr ⟨rfl, .inl rfl⟩)

theorem Prev.store (h : Prev pk v g0 g1 actual t) : t [storeName] = none := by
  cases hx : t [storeName] with
  | none => rfl
  | some e =>
    exfalso
    refine not_expected_store h.old ((h.inst _ ?_ e).1 hx)
    rintro ⟨q, r, hq, _⟩
    cases q with
    | nil => simp only [List.nil_append, List.cons.injEq] at hq; exact absurd hq.1 (by decide)
    | cons a q => simp at hq

def Hot (v : LockView P S V I) (g : Graph Str P S) (actual : IMap Str (LNode V I)) (n : Str) : Prop :=
  InstName n ∧ ¬ Cold v g actual n

theorem located_cons {pk : Pkgs P} {g : Graph Str P S} (hg : Installable pk g) {i : Nat} {nd : Node Str P S} (h0 : i ≠ 0)
    (hi : g.nodes[i]? = some nd) : ∃ n ρ, LocatedAt g i (n :: ρ) ∧ InstName n := by
  have hl := (locatedAt_iff hg.tree (ord_of hg)).2 ⟨⟨nd, hi⟩, rfl⟩
  cases hp : g.nodePath i with
  | nil => rw [hp] at hl; exact absurd (locatedAt_nil hl) h0
  | cons n ρ => rw [hp] at hl; exact ⟨n, ρ, hl, located_inst hg hl n (by simp)⟩

theorem segs_ne_nil {n : Str} (hn : FolderName n) : nameSegs n ≠ [] := by
  rcases hn with ⟨a1, _⟩ | ⟨s, t, rfl, a1, a2, _⟩
  · rw [nameSegs_plain a1]; simp
  · rw [nameSegs_scoped a1 a2]; simp

theorem Prev.base (h : Prev pk v g0 g1 actual t) : Base pk g1 (Hot v g1 actual) (prunedTree v g1 actual t) where
  inst := h.new
  root := by simp [prunedTree, survives, h.root]
  clean := by
    intro n hn x
    unfold prunedTree
    rw [if_neg]
    rw [survives_iff h.new.tree hn.1 (y := x) _ (List.prefix_rfl)]
    · exact hn.2
    · intro hx; exact segs_ne_nil hn.1.1 (List.append_eq_nil_iff.1 hx).1
  way := by
    intro n hn q e hq he
    unfold prunedTree at he
    by_cases hqe : q = []
    · subst hqe
      rw [h.root] at he
      simp [survives] at he
      exact he.symm
    · rw [if_neg] at he
      · cases he
      · rw [survives_iff h.new.tree hn.1 (y := []) hqe (by simpa using hq)]
        exact hn.2
  cold := by
    intro i nd h0 hi hnt
    obtain ⟨n, ρ, hl, hn⟩ := located_cons h.new h0 hi
    have hc : Cold v g1 actual n := by
      by_contra hc
      exact hnt ⟨h0, n, ρ, hl, hn, hc⟩
    obtain ⟨j, nd', hl', hj, _⟩ := (h.noticed n hn.1 hc ρ _).2 ⟨i, nd, hl, hi, rfl⟩
    have htf := target_folder h.new.tree (ord_of h.new) h0 hl
    have hj0 : j ≠ 0 := by
      rintro rfl
      have := ((locatedAt_iff h.old.tree (ord_of h.old)).1 hl').2
      have h2 := ((locatedAt_iff h.old.tree (ord_of h.old)).1 (.root hj)).2
      rw [h2] at this; cases this
    have hd : targetDir g1 i = nameSegs n ++ folder ρ := by
      rw [folder_cons] at htf; simpa using htf
    have hex : t (targetDir g1 i) = some .dir := by
      refine (h.inst _ (not_inBin_way (located_inst h.new hl) (by rw [htf]; exact List.prefix_rfl)) .dir).2 (.inr ⟨rfl, .inr ⟨j, _, hj0, hl', by rw [htf]; exact List.prefix_rfl⟩⟩)
    unfold prunedTree
    rw [if_pos, hex]
    · simp
    · rw [survives_iff h.new.tree hn (y := folder ρ) _ (by rw [hd]; exact List.prefix_rfl)]
      · exact hc
      · rw [hd]; intro hx; exact segs_ne_nil hn.1 (List.append_eq_nil_iff.1 hx).1

theorem root_not_cons {pk : Pkgs P} {g : Graph Str P S} (hg : Installable pk g) {j : Nat} {n : Str} {ρ : List Str}
    (hl : LocatedAt g j (n :: ρ)) : j ≠ 0 := by
  rintro rfl
  have h1 := ((locatedAt_iff hg.tree (ord_of hg)).1 hl).2
  obtain ⟨nd, hn, _⟩ := hg.tree.root
  have h2 := ((locatedAt_iff hg.tree (ord_of hg)).1 (.root hn)).2
  rw [h2] at h1; cases h1

/-- an expected entry under a kept name is expected in both trees -/
theorem expected_same {g g' : Graph Str P S} (hg' : Installable pk g') {n : Str} {ρ : List Str}
    {p : Loc} {e : Entry} (hs : SameBelow pk g g' n)
    (h : (∃ i nd r, g.nodes[i]? = some nd ∧ LocatedAt g i (n :: ρ) ∧ nmWord :: p = folder (n :: ρ) ++ r ∧ pk.content nd.pkg r = some e) ∨
      (e = .dir ∧ ∃ i, LocatedAt g i (n :: ρ) ∧ nmWord :: p <+: folder (n :: ρ))) : Expected pk g' p e := by
  rcases h with ⟨i, nd, r, hi, hl, hp, hc⟩ | ⟨rfl, i, hl, hp⟩
  · obtain ⟨j, nd', hl', hj, hcc⟩ := (hs ρ _).1 ⟨i, nd, hl, hi, rfl⟩
    exact .inl ⟨j, nd', _, r, root_not_cons hg' hl', hj, hl', hp, by rw [hcc]; exact hc⟩
  · obtain ⟨nd, hi⟩ := located_exists hl
    obtain ⟨j, nd', hl', hj, hcc⟩ := (hs ρ _).1 ⟨i, nd, hl, hi, rfl⟩
    exact .inr ⟨rfl, .inr ⟨j, _, root_not_cons hg' hl', hl', hp⟩⟩

theorem SameBelow.symm {g g' : Graph Str P S} {n : Str} (h : SameBelow pk g g' n) : SameBelow pk g' g n :=
  fun ρ c => (h ρ c).symm

/-- extracting into the pruned tree installs the new tree -/
theorem Prev.installed (h : Prev pk v g0 g1 actual t) {y : Ext}
    (hy : At pk g1 (Hot v g1 actual) (prunedTree v g1 actual t) g1.nodes.length y) : Installed pk g1 y.tree := by
  intro p hb e
  rw [hy.tree p e]
  constructor
  · rintro (hT | ⟨i, _, ⟨h0, _⟩, hput | ⟨rfl, _, π, hl, hp⟩⟩)
    · unfold prunedTree at hT
      split at hT
      · rename_i hsv
        rcases expected_top h.old ((h.inst p hb e).1 hT) with ⟨rfl, rfl⟩ | ⟨hpe, n, y, hn, hpre, hcase⟩
        · exact .inr ⟨rfl, .inl rfl⟩
        · have hc := (survives_iff h.new.tree hn hpe hpre).1 hsv
          have hs := h.noticed n hn.1 hc
          rcases hcase with ⟨i, nd, ρ, r, _, a1, a2, a3, a4⟩ | ⟨a0, i, ρ, _, a1, a2⟩
          · exact expected_same h.new hs (.inl ⟨i, nd, r, a1, a2, a3, a4⟩)
          · exact expected_same h.new hs (.inr ⟨a0, i, a1, a2⟩)
      · cases hT
    · obtain ⟨nd, π, r, a1, a2, a3, a4⟩ := hput
      exact .inl ⟨i, nd, π, r, h0, a1, a2, a3, a4⟩
    · exact .inr ⟨rfl, .inr ⟨i, π, h0, hl, hp⟩⟩
  · intro hE
    rcases expected_top h.new hE with ⟨rfl, rfl⟩ | ⟨hpe, n, y, hn, hpre, hcase⟩
    · exact .inl h.base.root
    · by_cases hc : Cold v g1 actual n
      · left
        have hs := (h.noticed n hn.1 hc).symm
        have hE0 : Expected pk g0 p e := by
          rcases hcase with ⟨i, nd, ρ, r, _, a1, a2, a3, a4⟩ | ⟨a0, i, ρ, _, a1, a2⟩
          · exact expected_same h.old hs (.inl ⟨i, nd, r, a1, a2, a3, a4⟩)
          · exact expected_same h.old hs (.inr ⟨a0, i, a1, a2⟩)
        unfold prunedTree
        rw [if_pos ((survives_iff h.new.tree hn hpe hpre).2 hc)]
        exact (h.inst p hb e).2 hE0
      · right
        have hlen : ∀ i nd, g1.nodes[i]? = some nd → i < g1.nodes.length := fun i nd hi =>
          (List.getElem?_eq_some_iff.1 hi).1
        rcases hcase with ⟨i, nd, ρ, r, a0, a1, a2, a3, a4⟩ | ⟨rfl, i, ρ, a0, a1, a2⟩
        · exact ⟨i, hlen i nd a1, ⟨a0, n, ρ, a2, hn, hc⟩, .inl ⟨nd, _, r, a1, a2, a3, a4⟩⟩
        · obtain ⟨nd, hi⟩ := located_exists a1
          refine ⟨i, hlen i nd hi, ⟨a0, n, ρ, a1, hn, hc⟩, .inr ⟨rfl, ?_, _, a1, a2⟩⟩
          unfold prunedTree
          rw [if_neg]
          rw [survives_iff h.new.tree hn hpe hpre]
          exact hc


theorem Prev.install (h : Prev pk v g0 g1 actual t) {d : Disk V I} (hd : d.tree = t) (hm : d.metaFile = some actual) :
    ∃ l y, toLockfile v g1 = some l ∧ Hoisted.install pk v g1 d = some (⟨y.tree, some l.packages⟩, y) ∧
      At pk g1 (Hot v g1 actual) (prunedTree v g1 actual t) g1.nodes.length y ∧ Installed pk g1 y.tree := by
  subst hd
  obtain ⟨y, h1, h2⟩ := extract_all h.base
  obtain ⟨l, hl⟩ := toLockfile_isSome h.new.tree v
  refine ⟨l, y, hl, ?_, h2, h.installed h2⟩
  unfold Hoisted.install
  rw [prune_eq (by rw [h.root]; simp) h.store hm]
  simp only [h1, hl, Option.bind_some, Option.map_some]

/-! ### starting from nothing -/

theorem base_wiped {g : Graph Str P S} (hg : Installable pk g) : Base pk g InstName wiped where
  inst := hg
  root := by simp [wiped]
  clean := by
    intro n hn x
    unfold wiped
    rw [if_neg]
    intro h; exact segs_ne_nil hn.1 (List.append_eq_nil_iff.1 h).1
  way := by
    intro n _ q e _ he
    unfold wiped at he
    split at he
    · cases he; rfl
    · cases he
  cold := by
    intro i nd h0 hi hnt
    obtain ⟨n, ρ, hl, hn⟩ := located_cons hg h0 hi
    exact absurd ⟨h0, n, ρ, hl, hn⟩ hnt

theorem fresh_extract {g : Graph Str P S} {d : Disk V I} (hd : Fresh d) :
    extractAll pk g (prune v g d).tree = extractAll pk g wiped := by
  obtain ⟨hm, hd | hr⟩ := hd
  · unfold prune
    rw [if_pos (hd [])]
    unfold extractAll
    congr 2
    congr 1
    funext p
    unfold wiped
    simp [hd p]
  · unfold prune
    rw [hr, hm]
    simp

theorem fresh_install {g : Graph Str P S} (hg : Installable pk g) {d : Disk V I} (hd : Fresh d) :
    ∃ l y, toLockfile v g = some l ∧ install pk v g d = some (⟨y.tree, some l.packages⟩, y) ∧
      At pk g InstName wiped g.nodes.length y ∧ Installed pk g y.tree := by
  obtain ⟨y, h1, h2⟩ := extract_all (base_wiped hg)
  obtain ⟨l, hl⟩ := toLockfile_isSome hg.tree v
  refine ⟨l, y, hl, ?_, h2, ?_⟩
  · unfold install
    rw [fresh_extract hd]
    simp only [h1, hl, Option.bind_some, Option.map_some]
  · intro p hb e
    rw [h2.tree p e]
    constructor
    · rintro (hT | ⟨i, _, ⟨h0, _⟩, hput | ⟨rfl, _, π, hl, hp⟩⟩)
      · unfold wiped at hT
        split at hT
        · cases hT; rename_i h; exact .inr ⟨rfl, .inl h⟩
        · cases hT
      · obtain ⟨nd, π, r, a1, a2, a3, a4⟩ := hput
        exact .inl ⟨i, nd, π, r, h0, a1, a2, a3, a4⟩
      · exact .inr ⟨rfl, .inr ⟨i, π, h0, hl, hp⟩⟩
    · intro hE
      rcases expected_top hg hE with ⟨rfl, rfl⟩ | ⟨hpe, n, y, hn, hpre, hcase⟩
      · exact .inl (by simp [wiped])
      · right
        have hlen : ∀ i nd, g.nodes[i]? = some nd → i < g.nodes.length := fun i nd hi =>
          (List.getElem?_eq_some_iff.1 hi).1
        rcases hcase with ⟨i, nd, ρ, r, a0, a1, a2, a3, a4⟩ | ⟨rfl, i, ρ, a0, a1, a2⟩
        · exact ⟨i, hlen i nd a1, ⟨a0, n, ρ, a2, hn⟩, .inl ⟨nd, _, r, a1, a2, a3, a4⟩⟩
        · obtain ⟨nd, hi⟩ := located_exists a1
          exact ⟨i, hlen i nd hi, ⟨a0, n, ρ, a1, hn⟩, .inr ⟨rfl, by simp [wiped, hpe], _, a1, a2⟩⟩

/-! ### the same tree again -/

theorem noticed_refl {g : Graph Str P S} : Noticed pk v g g actual := fun _ _ _ _ _ => Iff.rfl

theorem recorded_self {g : Graph Str P S} {l : Lockfile V I} (h : toLockfile v g = some l) :
    Recorded v g (some l.packages) := by
  refine ⟨l, _, h, rfl, (toLockfile_wf h).nodes, ?_⟩
  intro k
  cases hk : l.packages.get? k with
  | none => exact .inl ⟨rfl, rfl⟩
  | some a => exact .inr ⟨a, a, rfl, rfl, ⟨⟨rfl, rfl, rfl, rfl, fun _ _ => rfl⟩, rfl, rfl⟩⟩

theorem valid_of_folder {n : Str} (h : FolderName n) : ValidName n := by
  rcases h with ⟨h1, _, _, _, h5⟩ | ⟨s, t, rfl, hs, ht, _⟩
  · exact .inl ⟨h1, h5⟩
  · exact .inr ⟨s, t, rfl, hs, ht⟩

/-- every top-level package of a recorded tree is found unchanged -/
theorem sameTop_of_recorded {g : Graph Str P S} (hg : Installable pk g) (hr : Recorded v g (some actual)) {i : Nat}
    {n : Str} (hl : LocatedAt g i [n]) : SameTop v g actual n := by
  obtain ⟨l, rec', h1, h2, hw, hsm⟩ := hr
  cases h2
  obtain ⟨nd, hi⟩ := located_exists hl
  have h0 := root_not_cons hg hl
  have hpath := ((locatedAt_iff hg.tree (ord_of hg)).1 hl).2
  obtain ⟨p, pn, hp, hpn, hch⟩ := hg.tree.listed i nd hi h0
  have hpl : LocatedAt g i (g.nodePath p ++ [nd.name]) :=
    .inside hi hp ((locatedAt_iff hg.tree (ord_of hg)).2 ⟨⟨pn, hpn⟩, rfl⟩)
  have he := ((locatedAt_iff hg.tree (ord_of hg)).1 hpl).2
  rw [hpath] at he
  have he' := List.append_inj' (s₁ := []) (t₁ := [n]) he rfl
  have hp0 : p = 0 := locatedAt_nil ((locatedAt_iff hg.tree (ord_of hg)).2 ⟨⟨pn, hpn⟩, he'.1.symm⟩)
  have hnn : n = nd.name := by simpa using he'.2
  subst hp0
  have hln : ∃ ln, lockNode v g i false = some ln := by simp [lockNode, hi]
  obtain ⟨ln, hln⟩ := hln
  have hpk := toLockfile_packages hg.tree (ord_of hg) (fun j nd' h0 hj => valid_of_folder (hg.names j nd' h0 hj).1) h1
  have hmem : (n, ln) ∈ l.packages := by
    rw [hpk, List.mem_filterMap]
    refine ⟨i, ?_, ?_⟩
    · simp [h0, (List.getElem?_eq_some_iff.1 hi).1]
    · rw [hln, Option.map_some, (lockNode_path hln).1, hpath]; rfl
  have hget : l.packages.get? n = some ln := IMap.get?_of_mem (toLockfile_wf h1).keys hmem
  rcases hsm n with ⟨_, hx⟩ | ⟨a, b, ha, hb, hab⟩
  · rw [hget] at hx; cases hx
  · rw [hget] at hb; cases hb
    refine ⟨pn, i, ln, a, hpn, hnn ▸ hch, hln, ha, (LNode.eqv_iff (hw (n, a) (IMap.mem_of_get? ha)) (lockNode_wf hln)).2 hab⟩

theorem nothing_hot {g : Graph Str P S} (hg : Installable pk g) (hr : Recorded v g (some actual)) (i : Nat) :
    ¬ Top g (Hot v g actual) i := by
  rintro ⟨h0, n, ρ, hl, hn, hc⟩
  obtain ⟨j, hj, _⟩ := located_prefix hl [n] ρ rfl
  exact hc (.inr (sameTop_of_recorded hg hr hj))

end

end Hoisted
end Oro
