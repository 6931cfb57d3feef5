import Verif.Spec.Isolated
import Verif.Proofs.Hoisted
import Mathlib.Data.List.Infix
/- Lemmas for C46 and C47. -/

set_option linter.unusedSectionVars false

namespace Oro
namespace Iso
open Hoisted (Entry Tree Pkgs Disk storeName binName unpack below dirsAbove)

variable {P S V I : Type}

/-! ### names -/

theorem nameOf_eq {g : Graph Str P S} {i : Nat} {nd : Node Str P S} (h : g.nodes[i]? = some nd) : nameOf g i = nd.name := by
  simp [nameOf, h]

/-- the parts of a name with a suffix -/
theorem segs_suffix {n x : Str} (hn : FolderName n) (hx : '/' ∉ x) :
    ∃ a b, PSpec.splitChar '/' n = a ++ [b] ∧ PSpec.splitChar '/' (n ++ '@' :: x) = a ++ [b ++ '@' :: x] ∧
      (a = [] ∨ ∃ s, a = ['@' :: s]) ∧ ∀ y ∈ a, y ≠ nmWord := by
  rcases hn with ⟨h1, h2, h3, h4, h5⟩ | ⟨s, t, rfl, hs, ht, ht2, ht3⟩
  · refine ⟨[], n, nameSegs_plain h1, ?_, .inl rfl, by simp⟩
    exact nameSegs_plain (by simp [h1, hx])
  · refine ⟨['@' :: s], t, nameSegs_scoped hs ht, ?_, .inr ⟨s, rfl⟩, by simp [nmWord]⟩
    have e : '@' :: s ++ '/' :: t ++ '@' :: x = '@' :: s ++ '/' :: (t ++ '@' :: x) := by simp
    rw [e]
    exact nameSegs_scoped hs (by simp [ht, hx])

theorem segs_eq {n m : Str} (hn : FolderName n) (hm : FolderName m) (h : PSpec.splitChar '/' n = PSpec.splitChar '/' m) : n = m := by
  have h' : nameSegs n ++ [] = nameSegs m ++ [] := by simpa [nameSegs] using h
  exact (Hoisted.segs_inj hn hm h').1

/-- the two forms of a name -/
theorem segs_form {n : Str} (hn : FolderName n) : (∃ c, PSpec.splitChar '/' n = [c] ∧ c = n ∧ c.head? ≠ some '@' ∧ c ≠ nmWord ∧ '/' ∉ c) ∨
    ∃ s t, PSpec.splitChar '/' n = ['@' :: s, t] ∧ n = '@' :: s ++ '/' :: t ∧ '/' ∉ s ∧ '/' ∉ t := by
  rcases hn with ⟨h1, h2, h3, h4, h5⟩ | ⟨s, t, rfl, hs, ht, ht2, ht3⟩
  · exact .inl ⟨n, nameSegs_plain h1, rfl, h5, h3, h1⟩
  · exact .inr ⟨s, t, nameSegs_scoped hs ht, rfl, hs, ht⟩

section
variable {pk : Pkgs P} {v : Env} {g : Graph Str P S}

/-- `i` is a package -/
def IsPkg (g : Graph Str P S) (i : Nat) : Prop := i ≠ 0 ∧ ∃ nd, g.nodes[i]? = some nd

theorem pkg_name (hg : Installable pk v g) {i : Nat} (h : IsPkg g i) : FolderName (nameOf g i) ∧ nameOf g i ≠ storeName := by
  obtain ⟨h0, nd, hn⟩ := h
  rw [nameOf_eq hn]
  exact hg.names i nd h0 hn

/-- the shape of a package's folder -/
theorem home_form (hg : Installable pk v g) {i : Nat} (h : IsPkg g i) :
    ∃ a b, PSpec.splitChar '/' (nameOf g i) = a ++ [b] ∧
      PSpec.splitChar '/' (dirName v g i) = a ++ [b ++ '@' :: v.hash (joinPath (g.nodePath i))] ∧
      home v g i = storeName :: (a ++ (b ++ '@' :: v.hash (joinPath (g.nodePath i))) :: nmWord :: (a ++ [b])) ∧
      (a = [] ∨ ∃ s, a = ['@' :: s]) ∧ ∀ y ∈ a, y ≠ nmWord := by
  obtain ⟨a, b, h1, h2, h3, h4⟩ := segs_suffix (pkg_name hg h).1 (hg.digits (joinPath (g.nodePath i))).2.1
  refine ⟨a, b, h1, h2, ?_, h3, h4⟩
  unfold home
  have h2' : PSpec.splitChar '/' (dirName v g i) = a ++ [b ++ '@' :: v.hash (joinPath (g.nodePath i))] := h2
  rw [h2', h1]
  simp

theorem at_ne_nm (b x : Str) : b ++ '@' :: x ≠ nmWord := by
  intro h
  have : '@' ∈ nmWord := by rw [← h]; simp
  revert this; decide

/-- the store folders of packages tell them apart -/
theorem dirName_inj (hg : Installable pk v g) {i j : Nat} (hi : IsPkg g i) (hj : IsPkg g j) (h : dirName v g i = dirName v g j) : i = j := by
  unfold dirName at h
  have hl := (hg.digits (joinPath (g.nodePath i))).1
  have hl' := (hg.digits (joinPath (g.nodePath j))).1
  have := List.append_inj' h (by simp [hl, hl'])
  obtain ⟨hi0, ni, hni⟩ := hi
  obtain ⟨hj0, nj, hnj⟩ := hj
  refine hg.apart i j ni nj hi0 hj0 hni hnj ?_ (List.cons.inj this.2).2
  rw [← nameOf_eq hni, ← nameOf_eq hnj]; exact this.1

theorem append_single_inj {a a' : Loc} {x x' : Str} {r r' : Loc} (ha : ∀ y ∈ a, y ≠ nmWord) (hx : x ≠ nmWord) (ha' : ∀ y ∈ a', y ≠ nmWord)
    (hx' : x' ≠ nmWord) (h : a ++ x :: nmWord :: r = a' ++ x' :: nmWord :: r') : a = a' ∧ x = x' ∧ r = r' := by
  induction a generalizing a' with
  | nil =>
    cases a' with
    | nil => simpa using h
    | cons y a' =>
      exfalso
      simp only [List.nil_append, List.cons_append, List.cons.injEq] at h
      cases a' with
      | nil => simp only [List.nil_append, List.cons.injEq] at h; exact hx' h.2.1.symm
      | cons z a' => simp only [List.cons_append, List.cons.injEq] at h; exact ha' z (by simp) h.2.1.symm
  | cons y a ih =>
    cases a' with
    | nil =>
      exfalso
      simp only [List.nil_append, List.cons_append, List.cons.injEq] at h
      cases a with
      | nil => simp only [List.nil_append, List.cons.injEq] at h; exact hx h.2.1
      | cons z a => simp only [List.cons_append, List.cons.injEq] at h; exact ha z (by simp) h.2.1
    | cons y' a' =>
      simp only [List.cons_append, List.cons.injEq] at h
      obtain ⟨h1, h2⟩ := h
      obtain ⟨i1, i2, i3⟩ := ih (fun z hz => ha z (by simp [hz])) (fun z hz => ha' z (by simp [hz])) h2
      exact ⟨by rw [h1, i1], i2, i3⟩

/-- the folders of two packages have nothing below them in common -/
theorem home_apart (hg : Installable pk v g) {i j : Nat} (hi : IsPkg g i) (hj : IsPkg g j) {x : Loc} (h1 : home v g i <+: x) (h2 : home v g j <+: x) : i = j := by
  obtain ⟨a, b, e1, e2, e3, _, e5⟩ := home_form hg hi
  obtain ⟨a', b', e1', e2', e3', _, e5'⟩ := home_form hg hj
  obtain ⟨r, rfl⟩ := h1
  obtain ⟨r', h2⟩ := h2
  rw [e3, e3'] at h2
  simp only [List.cons_append, List.append_assoc, List.cons.injEq, true_and] at h2
  obtain ⟨rfl, hx, _⟩ := append_single_inj e5' (at_ne_nm _ _) e5 (at_ne_nm _ _) h2
  refine dirName_inj hg hi hj ?_
  have hn := (pkg_name hg hi).1
  -- the last parts are equal, so the digits and the names are
  have hl := (hg.digits (joinPath (g.nodePath i))).1
  have hl' := (hg.digits (joinPath (g.nodePath j))).1
  have hb := List.append_inj' hx (by simp [hl, hl'])
  have : nameOf g i = nameOf g j := segs_eq hn (pkg_name hg hj).1 (by rw [e1, e1', hb.1])
  unfold dirName
  rw [this, (List.cons.inj hb.2).2]

theorem home_head (v : Env) (g : Graph Str P S) (i : Nat) : (home v g i).head? = some storeName := rfl

theorem home_ne_nil (v : Env) (g : Graph Str P S) (i : Nat) : home v g i ≠ [] := by simp [home]

/-- a dependency -/
theorem dep_pkg (hg : Installable pk v g) {i j : Nat} (h : j ∈ depsOf g i) : IsPkg g j := by
  unfold depsOf at h
  obtain ⟨e, he, rfl⟩ := List.mem_map.1 h
  obtain ⟨h1, h2⟩ := List.mem_filter.1 he
  exact hg.known e h1

/-- the entry of a dependency -/
theorem entry_cases (hg : Installable pk v g) {i j : Nat} (h : IsPkg g j) :
    (∃ c, entryFor v g i j = nm v g i ++ [c] ∧ (entryFor v g i j).dropLast = nm v g i ∧ c = nameOf g j ∧ c.head? ≠ some '@') ∨
    ∃ s t, entryFor v g i j = nm v g i ++ ['@' :: s, t] ∧ (entryFor v g i j).dropLast = nm v g i ++ ['@' :: s] ∧ nameOf g j = '@' :: s ++ '/' :: t := by
  rcases segs_form (pkg_name hg h).1 with ⟨c, h1, h2, h3, _⟩ | ⟨s, t, h1, h2, _⟩
  · exact .inl ⟨c, by unfold entryFor; rw [h1], by unfold entryFor; rw [h1]; simp, h2, h3⟩
  · refine .inr ⟨s, t, by unfold entryFor; rw [h1], ?_, h2⟩
    unfold entryFor
    rw [h1, show nm v g i ++ ['@' :: s, t] = (nm v g i ++ ['@' :: s]) ++ [t] by simp, List.dropLast_concat]

theorem nm_root (v : Env) (g : Graph Str P S) : nm v g 0 = [] := rfl
theorem nm_pkg (v : Env) (g : Graph Str P S) {i : Nat} (h : i ≠ 0) : nm v g i = home v g i ++ [nmWord] := by simp [nm, h]

theorem segs_head (hg : Installable pk v g) {j : Nat} (h : IsPkg g j) (x : Loc) : (PSpec.splitChar '/' (nameOf g j) ++ x).head? ≠ some storeName := by
  obtain ⟨h1, h2⟩ := pkg_name hg h
  rcases segs_form h1 with ⟨c, e, rfl, _⟩ | ⟨s, t, e, _⟩
  · rw [e]; simpa using h2
  · rw [e]; simp [storeName]

/-! ### where things are -/

/-- `i` is the project or a package -/
def Src (g : Graph Str P S) (i : Nat) : Prop := i = 0 ∨ IsPkg g i

theorem zone (hg : Installable pk v g) {i k l : Nat} (hi : Src g i) (hk : Src g k) (hl : IsPkg g l) {a : Loc}
    (h1 : a ≠ []) (h2 : a.head? ≠ some storeName) (h : nm v g i ++ a <+: entryFor v g k l) : i = k := by
  rcases hi with rfl | hi <;> rcases hk with rfl | hk
  · rfl
  · exfalso
    rw [nm_root, List.nil_append] at h
    obtain ⟨x, hx⟩ := h
    cases a with
    | nil => exact h1 rfl
    | cons c a =>
      unfold entryFor at hx
      rw [nm_pkg v g hk.1] at hx
      simp only [home, List.cons_append, List.cons.injEq] at hx
      exact h2 (by rw [hx.1]; rfl)
  · exfalso
    obtain ⟨x, hx⟩ := h
    unfold entryFor at hx
    rw [nm_root, List.nil_append, nm_pkg v g hi.1] at hx
    refine segs_head hg hl [] ?_
    rw [List.append_nil, ← hx]; rfl
  · refine home_apart hg hi hk (x := entryFor v g k l) ?_ ?_
    · rw [nm_pkg v g hi.1, List.append_assoc] at h
      exact (List.prefix_append _ _).trans h
    · unfold entryFor
      rw [nm_pkg v g hk.1, List.append_assoc]
      exact List.prefix_append _ _

theorem home_entry (v : Env) (g : Graph Str P S) {k l : Nat} (hk : k ≠ 0) : home v g k <+: (entryFor v g k l) := by
  unfold entryFor
  rw [nm_pkg v g hk, List.append_assoc]
  exact List.prefix_append _ _

/-- nothing of the store is at a dependency of the project -/
theorem root_entry_head (hg : Installable pk v g) {l : Nat} (hl : IsPkg g l) {p : Loc} (h : p <+: entryFor v g 0 l) : p.head? ≠ some storeName := by
  intro hp
  obtain ⟨x, hx⟩ := h
  refine segs_head hg hl [] ?_
  rw [List.append_nil]
  unfold entryFor at hx
  rw [nm_root, List.nil_append] at hx
  rw [← hx]
  cases p with
  | nil => cases hp
  | cons c p => simpa using hp

theorem head_of_prefix {p q : Loc} {c : Str} (h : p <+: q) (h1 : p ≠ []) (h2 : q.head? = some c) : p.head? = some c := by
  obtain ⟨x, rfl⟩ := h
  cases p with
  | nil => exact absurd rfl h1
  | cons d p => simpa using h2

theorem head_of_home {i : Nat} {p : Loc} (h : home v g i <+: p) : p.head? = some storeName := by
  obtain ⟨x, rfl⟩ := h; rfl

theorem name_dep (hg : Installable pk v g) {i j l : Nat} (hj : j ∈ depsOf g i) (hl : l ∈ depsOf g i) (h : nameOf g j = nameOf g l) : j = l :=
  List.inj_on_of_nodup_map (hg.single i) hj hl h

/-- the entries of one package do not overlap -/
theorem entry_overlap (hg : Installable pk v g) {i j l : Nat} (hj : IsPkg g j) (hl : IsPkg g l) (h : entryFor v g i j <+: (entryFor v g i l).dropLast) : False := by
  have hlen := h.length_le
  rcases entry_cases (v := v) (i := i) hg hj with ⟨c, e1, _, _, hc⟩ | ⟨s, t, e1, _, _⟩ <;>
  rcases entry_cases (v := v) (i := i) hg hl with ⟨d, f1, f2, _, hd⟩ | ⟨s', t', f1, f2, _⟩
  · rw [e1, f2] at hlen; simp at hlen; omega
  · rw [e1, f2, List.prefix_append_right_inj] at h
    obtain ⟨x, hx⟩ := h
    simp only [List.cons_append, List.nil_append, List.cons.injEq] at hx
    rw [hx.1] at hc
    exact hc rfl
  · rw [e1, f2] at hlen; simp at hlen; omega
  · rw [e1, f2] at hlen; simp at hlen

/-! ### what has been added to the tree `T0` -/

variable (pk v g) in
/-- what is new when the packages `Placed` have been unpacked and the dependencies `Linked` linked -/
def New (T0 : Tree) (Placed : Nat → Prop) (Linked : Nat → Nat → Prop) (p : Loc) (e : Entry) : Prop :=
  (∃ i nd, i ≠ 0 ∧ g.nodes[i]? = some nd ∧ Placed i ∧ T0 (home v g i) = none ∧
    ((∃ r, p = home v g i ++ r ∧ pk.content nd.pkg r = some e) ∨ (e = .dir ∧ p <+: home v g i))) ∨
  (∃ i j, Linked i j ∧ T0 (entryFor v g i j) = none ∧
    ((p = entryFor v g i j ∧ e = .link (diff (home v g j) p.dropLast)) ∨ (e = .dir ∧ p <+: (entryFor v g i j).dropLast)))

variable (pk v g) in
/-- what is known about the tree extraction starts from -/
structure Base (T0 : Tree) : Prop where
  inst : Installable pk v g
  root : T0 [] = some .dir
  sane : ∀ p r, r ≠ [] → T0 (p ++ r) ≠ none → T0 p = some .dir
  way : ∀ i, IsPkg g i → ∀ q, q <+: home v g i ++ [nmWord] → T0 q = none ∨ T0 q = some .dir
  missing : ∀ i j, Src g i → j ∈ depsOf g i → T0 (entryFor v g i j) = none →
    (entryFor v g i j).dropLast = nm v g i ∨ T0 (entryFor v g i j).dropLast = none
  links : ∀ i j text, Src g i → j ∈ depsOf g i → T0 (entryFor v g i j) = some (.link text) →
    ∃ q, resolve v (entryFor v g i j).dropLast text = some q ∧ T0 q ≠ none

variable (pk v g) in
/-- the state of extraction -/
structure At (T0 : Tree) (Placed : Nat → Prop) (Linked : Nat → Nat → Prop) (t : Tree) (cache : List Loc) : Prop where
  tree : ∀ p e, t p = some e ↔ T0 p = some e ∨ (T0 p = none ∧ New pk v g T0 Placed Linked p e)
  linked : ∀ i j, Linked i j → Src g i ∧ j ∈ depsOf g i ∧ (i = 0 ∨ Placed i)
  nil : [] ∈ cache
  dirs : ∀ c ∈ cache, t c = some .dir
  closed : ∀ c ∈ cache, c.dropLast ∈ cache
  homes : ∀ i, IsPkg g i → home v g i ∈ cache → home v g i ++ [nmWord] ∈ cache
  scopes : ∀ i j, Linked i j → T0 (entryFor v g i j) = none → (entryFor v g i j).dropLast ∈ cache

section
variable {T0 : Tree} {Placed : Nat → Prop} {Linked : Nat → Nat → Prop}

theorem new_home (hb : Base pk v g T0) (hL : ∀ i j, Linked i j → Src g i ∧ j ∈ depsOf g i ∧ (i = 0 ∨ Placed i)) {i : Nat} (hi : IsPkg g i) {p : Loc} {e : Entry}
    (hp : home v g i <+: p) (h : New pk v g T0 Placed Linked p e) : Placed i := by
  have hg := hb.inst
  rcases h with ⟨k, nd, k0, kn, kp, _, ⟨r, rfl, _⟩ | ⟨_, kw⟩⟩ | ⟨k, l, kl, _, h⟩
  · rw [home_apart hg hi ⟨k0, nd, kn⟩ hp (List.prefix_append _ _)]; exact kp
  · rw [home_apart hg hi ⟨k0, nd, kn⟩ (hp.trans kw) List.prefix_rfl]; exact kp
  · obtain ⟨hs, hd, hpl⟩ := hL k l kl
    have hl := dep_pkg hg hd
    have hpe : p <+: entryFor v g k l := by
      rcases h with ⟨rfl, _⟩ | ⟨_, h⟩
      · exact List.prefix_rfl
      · exact h.trans (List.dropLast_prefix _)
    rcases hs with rfl | hk
    · exact absurd (head_of_home hp) (root_entry_head hg hl hpe)
    · rw [home_apart hg hi hk (hp.trans hpe) (home_entry v g hk.1)]
      exact hpl.resolve_left hk.1

theorem new_way (hb : Base pk v g T0) (hL : ∀ i j, Linked i j → Src g i ∧ j ∈ depsOf g i ∧ (i = 0 ∨ Placed i)) {i : Nat} (hi : IsPkg g i) {p : Loc} {e : Entry}
    (hp : p <+: home v g i) (h : New pk v g T0 Placed Linked p e) : e = .dir := by
  have hg := hb.inst
  rcases h with ⟨k, nd, k0, kn, kp, _, ⟨r, rfl, hc⟩ | ⟨rfl, _⟩⟩ | ⟨k, l, kl, _, ⟨rfl, _⟩ | ⟨rfl, _⟩⟩
  · have := home_apart hg hi ⟨k0, nd, kn⟩ List.prefix_rfl ((List.prefix_append _ _).trans hp)
    subst this
    have hr : r = [] := by
      have := hp.length_le
      simp only [List.length_append] at this
      exact List.length_eq_zero_iff.1 (by omega)
    subst hr
    rw [hg.dirs i nd k0 kn] at hc
    exact (Option.some.inj hc).symm
  · rfl
  · exfalso
    obtain ⟨hs, hd, hpl⟩ := hL k l kl
    have hl := dep_pkg hg hd
    rcases hs with rfl | hk
    · refine root_entry_head hg hl List.prefix_rfl (head_of_prefix hp ?_ (home_head v g i))
      intro h0
      rcases entry_cases (v := v) (i := 0) hg hl with ⟨c, e1, _⟩ | ⟨s, t, e1, _⟩ <;> rw [e1] at h0 <;> simp at h0
    · have := home_apart hg hi hk (List.prefix_rfl) ((home_entry v g hk.1).trans hp)
      subst this
      have := hp.length_le
      unfold entryFor at this
      rw [nm_pkg v g hk.1] at this
      simp only [List.length_append, List.length_cons, List.length_nil] at this
      omega
  · rfl

theorem entry_ne_nil (hg : Installable pk v g) {i j : Nat} (hj : IsPkg g j) : entryFor v g i j ≠ [] := by
  rcases entry_cases (v := v) (i := i) hg hj with ⟨c, e1, _⟩ | ⟨s, t, e1, _⟩ <;> rw [e1] <;> simp

theorem segs_nonempty (hg : Installable pk v g) {j : Nat} (hj : IsPkg g j) : PSpec.splitChar '/' (nameOf g j) ≠ [] := by
  rcases segs_form (pkg_name hg hj).1 with ⟨c, e, _⟩ | ⟨s, t, e, _⟩ <;> rw [e] <;> simp

theorem segs_head' (hg : Installable pk v g) {j : Nat} (hj : IsPkg g j) : (PSpec.splitChar '/' (nameOf g j)).head? ≠ some storeName := by
  have := segs_head hg hj []
  rwa [List.append_nil] at this

/-- content is not where dependencies are -/
theorem content_entry (hb : Base pk v g T0) {i j k : Nat} {nd : Node Str P S} (hs : Src g i) (hj : IsPkg g j) (k0 : k ≠ 0) (kn : g.nodes[k]? = some nd) {r x : Loc} {e : Entry}
    (hc : pk.content nd.pkg r = some e) (hx : x <+: entryFor v g i j) (h : x = home v g k ++ r) : x = home v g k ∧ e = .dir ∧ i = k := by
  have hg := hb.inst
  subst h
  rcases hs with rfl | hi
  · exact absurd (head_of_home (List.prefix_append _ _)) (root_entry_head hg hj hx)
  · have := home_apart hg hi ⟨k0, nd, kn⟩ (home_entry v g hi.1) ((List.prefix_append _ _).trans hx)
    subst this
    unfold entryFor at hx
    rw [nm_pkg v g k0, List.append_assoc, List.prefix_append_right_inj] at hx
    cases r with
    | nil =>
      rw [hg.dirs i nd k0 kn] at hc
      exact ⟨by simp, (Option.some.inj hc).symm, rfl⟩
    | cons c r =>
      exfalso
      obtain ⟨y, hy⟩ := hx
      simp only [List.cons_append, List.nil_append, List.cons.injEq] at hy
      rw [hy.1, hg.bundled i nd r k0 kn] at hc
      cases hc

theorem new_entry (hb : Base pk v g T0) (hL : ∀ i j, Linked i j → Src g i ∧ j ∈ depsOf g i ∧ (i = 0 ∨ Placed i)) {i j : Nat} (hs : Src g i) (hj : j ∈ depsOf g i) {e : Entry}
    (h : New pk v g T0 Placed Linked (entryFor v g i j) e) : Linked i j := by
  have hg := hb.inst
  have hjp := dep_pkg hg hj
  have hz : ∀ k l, Linked k l → entryFor v g i j <+: entryFor v g k l → i = k := by
    intro k l kl hp
    obtain ⟨ks, kd, _⟩ := hL k l kl
    exact zone hg hs ks (dep_pkg hg kd) (segs_nonempty hg hjp) (segs_head' hg hjp) hp
  rcases h with ⟨k, nd, k0, kn, kp, _, ⟨r, h, hc⟩ | ⟨rfl, h⟩⟩ | ⟨k, l, kl, _, ⟨h, _⟩ | ⟨rfl, h⟩⟩
  · exfalso
    obtain ⟨e1, _, e2⟩ := content_entry hb hs hjp k0 kn hc List.prefix_rfl h
    have := congrArg List.length e1
    unfold entryFor at this
    rw [e2, nm_pkg v g k0] at this
    simp only [List.length_append, List.length_cons, List.length_nil] at this
    omega
  · exfalso
    rcases hs with rfl | hi
    · exact root_entry_head hg hjp List.prefix_rfl (head_of_prefix h (entry_ne_nil hg hjp) (home_head v g k))
    · have := home_apart hg hi ⟨k0, nd, kn⟩ ((home_entry v g hi.1).trans h) List.prefix_rfl
      subst this
      have := h.length_le
      unfold entryFor at this
      rw [nm_pkg v g k0] at this
      simp only [List.length_append, List.length_cons, List.length_nil] at this
      omega
  · have := hz k l kl (by rw [h])
    subst this
    obtain ⟨_, kd, _⟩ := hL i l kl
    unfold entryFor at h
    rw [List.append_cancel_left_eq] at h
    rw [name_dep hg hj kd (segs_eq (pkg_name hg hjp).1 (pkg_name hg (dep_pkg hg kd)).1 h)]
    exact kl
  · exfalso
    have := hz k l kl (h.trans (List.dropLast_prefix _))
    subst this
    exact entry_overlap hg hjp (dep_pkg hg (hL i l kl).2.1) h

/-- what is above a dependency's entry is a folder -/
theorem new_above (hb : Base pk v g T0) (hL : ∀ i j, Linked i j → Src g i ∧ j ∈ depsOf g i ∧ (i = 0 ∨ Placed i)) {i j : Nat} (hs : Src g i) (hj : IsPkg g j) {q : Loc} {e : Entry}
    (hq : q <+: (entryFor v g i j).dropLast) (h : New pk v g T0 Placed Linked q e) : e = .dir := by
  have hg := hb.inst
  rcases h with ⟨k, nd, k0, kn, kp, _, ⟨r, h, hc⟩ | ⟨rfl, h⟩⟩ | ⟨k, l, kl, _, ⟨rfl, _⟩ | ⟨rfl, h⟩⟩
  · exact (content_entry hb hs hj k0 kn hc (hq.trans (List.dropLast_prefix _)) h).2.1
  · rfl
  · exfalso
    obtain ⟨ks, kd, _⟩ := hL k l kl
    have := zone hg ks hs hj (segs_nonempty hg (dep_pkg hg kd)) (segs_head' hg (dep_pkg hg kd)) (hq.trans (List.dropLast_prefix _))
    subst this
    exact entry_overlap hg (dep_pkg hg kd) hj hq
  · rfl

/-- a scope's folder is there only because of a dependency in that scope -/
theorem new_scope (hb : Base pk v g T0) (hL : ∀ i j, Linked i j → Src g i ∧ j ∈ depsOf g i ∧ (i = 0 ∨ Placed i)) {i : Nat} (hs : Src g i) {s : Str} {e : Entry}
    (h : New pk v g T0 Placed Linked (nm v g i ++ ['@' :: s]) e) :
    ∃ l, Linked i l ∧ T0 (entryFor v g i l) = none ∧ (entryFor v g i l).dropLast = nm v g i ++ ['@' :: s] := by
  have hg := hb.inst
  have hst : (['@' :: s] : Loc).head? ≠ some storeName := by simp [storeName]
  rcases h with ⟨k, nd, k0, kn, kp, _, ⟨r, h, hc⟩ | ⟨rfl, h⟩⟩ | ⟨k, l, kl, kt, ⟨h, _⟩ | ⟨rfl, h⟩⟩
  · exfalso
    rcases hs with rfl | hi
    · rw [nm_root, List.nil_append] at h
      simp [home, storeName] at h
    · have hpre : home v g i <+: nm v g i ++ ['@' :: s] := by rw [nm_pkg v g hi.1, List.append_assoc]; exact List.prefix_append _ _
      have := home_apart hg hi ⟨k0, nd, kn⟩ hpre (by rw [h]; exact List.prefix_append _ _)
      subst this
      rw [nm_pkg v g k0, List.append_assoc, List.append_cancel_left_eq] at h
      subst h
      have := hg.bundled i nd ['@' :: s] k0 kn
      simp only [List.cons_append, List.nil_append] at hc
      rw [this] at hc; cases hc
  · exfalso
    rcases hs with rfl | hi
    · have := head_of_prefix h (by simp) (home_head v g k)
      rw [nm_root, List.nil_append] at this
      exact hst this
    · have hpre : home v g i <+: nm v g i ++ ['@' :: s] := by rw [nm_pkg v g hi.1, List.append_assoc]; exact List.prefix_append _ _
      have := home_apart hg hi ⟨k0, nd, kn⟩ (hpre.trans h) List.prefix_rfl
      subst this
      have := h.length_le
      rw [nm_pkg v g k0] at this
      simp only [List.length_append, List.length_cons, List.length_nil] at this
      omega
  · exfalso
    obtain ⟨ks, kd, _⟩ := hL k l kl
    have := zone hg hs ks (dep_pkg hg kd) (by simp) hst (by rw [h])
    subst this
    rcases entry_cases (v := v) (i := i) hg (dep_pkg hg kd) with ⟨c, e1, _, _, hc⟩ | ⟨s', t, e1, _⟩
    · rw [e1, List.append_cancel_left_eq] at h
      simp only [List.cons.injEq, and_true] at h
      rw [← h] at hc; exact hc rfl
    · rw [e1, List.append_cancel_left_eq] at h
      simp at h
  · obtain ⟨ks, kd, _⟩ := hL k l kl
    have := zone hg hs ks (dep_pkg hg kd) (by simp) hst (h.trans (List.dropLast_prefix _))
    subst this
    refine ⟨l, kl, kt, ?_⟩
    rcases entry_cases (v := v) (i := i) hg (dep_pkg hg kd) with ⟨c, _, e2, _⟩ | ⟨s', t, _, e2, _⟩
    · exfalso
      rw [e2] at h
      have := h.length_le
      simp at this
      omega
    · rw [e2] at h ⊢
      exact (h.eq_of_length (by simp)).symm

/-! ### one package -/

theorem blocked_iff {t : Tree} {d : Loc} : Hoisted.blocked t d = true ↔ ∃ q, q <+: d ∧ q ≠ d ∧ t q ≠ none ∧ t q ≠ some .dir := by
  unfold Hoisted.blocked
  simp only [List.any_eq_true, List.mem_range, Bool.and_eq_true, decide_eq_true_eq]
  constructor
  · rintro ⟨k, hk, h1, h2⟩
    refine ⟨d.take k, List.take_prefix _ _, ?_, h1, h2⟩
    intro h
    have := congrArg List.length h
    simp only [List.length_take] at this
    omega
  · rintro ⟨q, hq, hne, h1, h2⟩
    have hlt : q.length < d.length := by
      rcases Nat.lt_or_ge q.length d.length with h | h
      · exact h
      · exact absurd (hq.eq_of_length (by have := hq.length_le; omega)) hne
    have e : d.take q.length = q := by
      obtain ⟨x, rfl⟩ := hq
      simp
    exact ⟨q.length, hlt, by rw [e]; exact h1, by rw [e]; exact h2⟩

theorem below_none_of {T0 : Tree} (hb : Base pk v g T0) {p r : Loc} (h : T0 p = none) : T0 (p ++ r) = none := by
  by_cases hr : r = []
  · rw [hr, List.append_nil]; exact h
  · cases hx : T0 (p ++ r) with
    | none => rfl
    | some e =>
      have := hb.sane p r hr (by rw [hx]; simp)
      rw [h] at this; cases this

theorem place_step {T0 : Tree} {Placed : Nat → Prop} {Linked : Nat → Nat → Prop} (hb : Base pk v g T0) {x : Ext}
    (h : At pk v g T0 Placed Linked x.tree x.cache) {i : Nat} (hi : IsPkg g i) (hnp : ¬ Placed i) :
    ∃ y, placeNode pk v g x i = some y ∧ At pk v g T0 (fun k => Placed k ∨ k = i) Linked y.tree y.cache := by
  have hg := hb.inst
  have hi0 := hi.1
  obtain ⟨nd, hn⟩ := hi.2
  have hlk : ∀ k l, Linked k l → Src g k ∧ l ∈ depsOf g k ∧ (k = 0 ∨ (Placed k ∨ k = i)) := fun k l kl =>
    ⟨(h.linked k l kl).1, (h.linked k l kl).2.1, (h.linked k l kl).2.2.imp id .inl⟩
  unfold placeNode
  rw [if_neg hi0, hn]
  dsimp only
  cases hT : T0 (home v g i) with
  | some e0 =>
    have hx : x.tree (home v g i) ≠ none := by
      rw [(h.tree _ e0).2 (.inl hT)]; simp
    rw [if_pos hx]
    refine ⟨x, rfl, ?_, hlk, h.nil, h.dirs, h.closed, h.homes, h.scopes⟩
    intro p e
    rw [h.tree p e]
    refine or_congr_right (and_congr_right fun _ => or_congr_left ?_)
    constructor
    · rintro ⟨k, kd, k0, kn, kp, kt, hk⟩
      exact ⟨k, kd, k0, kn, .inl kp, kt, hk⟩
    · rintro ⟨k, kd, k0, kn, kp | rfl, kt, hk⟩
      · exact ⟨k, kd, k0, kn, kp, kt, hk⟩
      · rw [hT] at kt; cases kt
  | none =>
    have hnone : ∀ p, home v g i <+: p → x.tree p = none := by
      rintro p hp
      cases hx : x.tree p with
      | none => rfl
      | some e =>
        exfalso
        rcases (h.tree p e).1 hx with h1 | ⟨_, h1⟩
        · obtain ⟨r, rfl⟩ := hp
          rw [below_none_of hb hT] at h1; cases h1
        · exact hnp (new_home hb h.linked hi hp h1)
    have hway : ∀ q e, q <+: home v g i → x.tree q = some e → e = .dir := by
      intro q e hq hx
      rcases (h.tree q e).1 hx with h1 | ⟨_, h1⟩
      · rcases hb.way i hi q (hq.trans (List.prefix_append _ _)) with h2 | h2
        · rw [h1] at h2; cases h2
        · rw [h1] at h2; exact Option.some.inj h2
      · exact new_way hb h.linked hi hq h1
    have hnb : Hoisted.blocked x.tree (home v g i) = false := by
      rw [Bool.eq_false_iff]
      intro hbk
      obtain ⟨q, hq, _, h1, h2⟩ := blocked_iff.1 hbk
      cases hx : x.tree q with
      | none => exact h1 hx
      | some e => exact h2 (by rw [hx, hway q e hq hx])
    rw [if_neg (by rw [hnone _ List.prefix_rfl]; simp)]
    unfold unpack
    rw [hnb]
    simp only [Bool.false_eq_true, if_false, Option.map_some]
    refine ⟨_, rfl, ?_, hlk, h.nil, ?_, h.closed, h.homes, h.scopes⟩
    · intro p e
      dsimp only
      by_cases hp : home v g i <+: p
      · -- in the package
        obtain ⟨r, rfl⟩ := hp
        have hbel : below (home v g i) (home v g i ++ r) = some r := Hoisted.below_eq_some.2 rfl
        have hT' := below_none_of hb (r := r) hT
        have hda : dirsAbove x.tree (home v g i) (home v g i ++ r) = none := by
          unfold dirsAbove
          rw [if_neg, hnone _ (List.prefix_append _ _)]
          simp only [Bool.and_eq_true, List.isPrefixOf_iff_prefix, decide_eq_true_eq, not_and]
          intro h1 h2
          have := h1.1.length_le
          simp only [List.length_append] at this
          refine absurd ?_ h1.2
          rw [List.length_eq_zero_iff.1 (by omega : r.length = 0), List.append_nil]
        rw [hbel, Option.bind_some]
        have hno : ¬ New pk v g T0 Placed Linked (home v g i ++ r) e := fun hN => hnp (new_home hb h.linked hi (List.prefix_append _ _) hN)
        constructor
        · intro he
          refine .inr ⟨hT', .inl ⟨i, nd, hi0, hn, .inr rfl, hT, .inl ⟨r, rfl, ?_⟩⟩⟩
          cases hc : pk.content nd.pkg r with
          | none => rw [hc] at he; dsimp only at he; rw [hda] at he; cases he
          | some e' => rw [hc] at he; exact he
        · rintro (he | ⟨_, ⟨k, kd, k0, kn, kp | rfl, kt, hk⟩ | hk⟩)
          · rw [hT'] at he; cases he
          · exact absurd (.inl ⟨k, kd, k0, kn, kp, kt, hk⟩) hno
          · rw [hn] at kn; cases kn
            rcases hk with ⟨r', hr, hc⟩ | ⟨rfl, hw⟩
            · rw [List.append_cancel_left_eq] at hr
              subst hr
              rw [hc]
            · have := hw.length_le
              simp only [List.length_append] at this
              have hr : r = [] := List.length_eq_zero_iff.1 (by omega)
              subst hr
              rw [hg.dirs k nd k0 hn]
          · exact absurd (.inr hk) hno
      · have hbel : below (home v g i) p = none := Hoisted.below_eq_none.2 hp
        rw [hbel, Option.bind_none]
        dsimp only
        have hadd : New pk v g T0 (fun k => Placed k ∨ k = i) Linked p e ↔ New pk v g T0 Placed Linked p e ∨ (e = .dir ∧ p <+: home v g i) := by
          constructor
          · rintro (⟨k, kd, k0, kn, kp | rfl, kt, hk⟩ | hk)
            · exact .inl (.inl ⟨k, kd, k0, kn, kp, kt, hk⟩)
            · rcases hk with ⟨r', hr, hc⟩ | hk
              · exact absurd (by rw [hr]; exact List.prefix_append _ _) hp
              · exact .inr hk
            · exact .inl (.inr hk)
          · rintro ((⟨k, kd, k0, kn, kp, kt, hk⟩ | hk) | hk)
            · exact .inl ⟨k, kd, k0, kn, .inl kp, kt, hk⟩
            · exact .inr hk
            · exact .inl ⟨i, nd, hi0, hn, .inr rfl, hT, .inr hk⟩
        rw [hadd]
        unfold dirsAbove
        by_cases hpw : p <+: home v g i
        · have hne : p ≠ home v g i := fun he => hp (by rw [he])
          cases hx : x.tree p with
          | none =>
            rw [if_pos (by simp [hpw, hne])]
            have hTp : T0 p = none := by
              cases hTp : T0 p with
              | none => rfl
              | some e' => rw [(h.tree p e').2 (.inl hTp)] at hx; cases hx
            constructor
            · intro he; exact .inr ⟨hTp, .inr ⟨(Option.some.inj he).symm, hpw⟩⟩
            · rintro (he | ⟨_, hN | ⟨rfl, _⟩⟩)
              · rw [hTp] at he; cases he
              · rw [(h.tree p e).2 (.inr ⟨hTp, hN⟩)] at hx; cases hx
              · rfl
          | some e' =>
            rw [if_neg (by simp), ← hx]
            rw [h.tree p e]
            refine or_congr_right (and_congr_right fun hTp => ⟨.inl, ?_⟩)
            rintro (hN | ⟨rfl, _⟩)
            · exact hN
            · have := hway p e' hpw hx
              subst this
              rcases (h.tree p .dir).1 hx with h1 | ⟨_, h1⟩
              · rw [hTp] at h1; cases h1
              · exact h1
        · rw [if_neg (by simp [hpw]), h.tree p e]
          refine or_congr_right (and_congr_right fun hTp => ⟨.inl, ?_⟩)
          rintro (hN | ⟨_, hw⟩)
          · exact hN
          · exact absurd hw hpw
    · intro c hc
      dsimp only
      have hd := h.dirs c hc
      have hnp' : ¬ home v g i <+: c := fun hp => by rw [hnone c hp] at hd; cases hd
      rw [Hoisted.below_eq_none.2 hnp', Option.bind_none]
      dsimp only
      unfold dirsAbove
      rw [if_neg (by simp [hd]), hd]

variable (pk v g) in
/-- packages that are not there yet, of the kind `sel` -/
def isNew (sel : P → Bool) (T0 : Tree) (i : Nat) : Bool :=
  decide (i ≠ 0) && (T0 (home v g i)).isNone && ((g.nodes[i]?).map fun nd => sel nd.pkg).getD false

/-- which packages are noted for their scripts and commands -/
theorem place_lists {T0 : Tree} {Placed : Nat → Prop} {Linked : Nat → Nat → Prop} (hb : Base pk v g T0) {x y : Ext}
    (h : At pk v g T0 Placed Linked x.tree x.cache) {i : Nat} (hs : Src g i) (hnp : ¬ Placed i) (hy : placeNode pk v g x i = some y) :
    y.rebuild = x.rebuild ++ [i].filter (isNew v g pk.scripts T0) ∧
    y.bins = x.bins ++ [i].filter (isNew v g (fun q => !(pk.bins q).isEmpty) T0) := by
  rcases hs with rfl | hi
  · simp only [placeNode, if_true, Option.some.injEq] at hy
    subst hy
    simp [isNew]
  · obtain ⟨nd, hn⟩ := hi.2
    unfold placeNode at hy
    rw [if_neg hi.1, hn] at hy
    dsimp only at hy
    cases hT : T0 (home v g i) with
    | some e0 =>
      rw [if_pos (by rw [(h.tree _ e0).2 (.inl hT)]; simp)] at hy
      cases hy
      simp [isNew, hT]
    | none =>
      have hnone : x.tree (home v g i) = none := by
        cases hx : x.tree (home v g i) with
        | none => rfl
        | some e =>
          exfalso
          rcases (h.tree _ e).1 hx with h1 | ⟨_, h1⟩
          · rw [hT] at h1; cases h1
          · exact hnp (new_home hb h.linked hi List.prefix_rfl h1)
      rw [if_neg (by rw [hnone]; simp)] at hy
      obtain ⟨t, _, rfl⟩ := Option.map_eq_some_iff.1 hy
      constructor
      · dsimp only
        cases hsc : pk.scripts nd.pkg <;> simp [isNew, hi.1, hT, hn, hsc]
      · dsimp only
        cases hbn : (pk.bins nd.pkg).isEmpty <;> simp [isNew, hi.1, hT, hn, hbn]

/-! ### one dependency -/

theorem prefix_dropLast {p q : Loc} (h : p <+: q) (hne : p ≠ q) : p <+: q.dropLast := by
  rcases List.eq_nil_or_concat q with rfl | ⟨q', c, rfl⟩
  · exact absurd (List.prefix_nil.1 h) hne
  · rw [List.concat_eq_append] at *
    rw [List.dropLast_concat]
    rcases List.prefix_concat_iff.1 h with h | h
    · exact absurd h hne
    · exact h

theorem closed_prefix {cache : List Loc} (hc : ∀ c ∈ cache, c.dropLast ∈ cache) : ∀ (n : Nat) (q : Loc), q.length = n → q ∈ cache → ∀ p, p <+: q → p ∈ cache := by
  intro n
  induction n with
  | zero =>
    intro q hq hm p hp
    rw [List.length_eq_zero_iff.1 hq] at hp hm
    rw [List.prefix_nil.1 hp]; exact hm
  | succ n ih =>
    intro q hq hm p hp
    by_cases hne : p = q
    · rw [hne]; exact hm
    · exact ih q.dropLast (by rw [List.length_dropLast, hq]; rfl) (hc q hm) p (prefix_dropLast hp hne)

/-- the effect of creating the folder a dependency's entry goes into -/
theorem mkdirp_step {T0 : Tree} {Placed : Nat → Prop} {Linked : Nat → Nat → Prop} (hb : Base pk v g T0) {t : Tree} {cache : List Loc}
    (h : At pk v g T0 Placed Linked t cache) {i j : Nat} (hs : Src g i) (hj : j ∈ depsOf g i) (hT : T0 (entryFor v g i j) = none) :
    ∃ t' cache', mkdirp t cache (entryFor v g i j).dropLast = some (t', cache') ∧
      (∀ p, t' p = if p <+: (entryFor v g i j).dropLast ∧ t p = none then some .dir else t p) ∧
      (entryFor v g i j).dropLast ∈ cache' ∧ (∀ c ∈ cache, c ∈ cache') ∧ (∀ c ∈ cache', t' c = some .dir) ∧ (∀ c ∈ cache', c.dropLast ∈ cache') ∧
      (∀ k, IsPkg g k → home v g k ∈ cache' → home v g k ++ [nmWord] ∈ cache') := by
  have hg := hb.inst
  have hjp := dep_pkg hg hj
  have hq : ∀ p e, p <+: (entryFor v g i j).dropLast → t p = some e → e = .dir := by
    intro p e hp ht
    rcases (h.tree p e).1 ht with h1 | ⟨_, h1⟩
    · -- in the old tree
      have key : p <+: nm v g i → e = .dir := by
        intro hp'
        rcases hs with rfl | hi
        · rw [nm_root] at hp'
          rw [List.prefix_nil.1 hp', hb.root] at h1
          exact (Option.some.inj h1).symm
        · rw [nm_pkg v g hi.1] at hp'
          rcases hb.way i hi p hp' with h2 | h2
          · rw [h1] at h2; cases h2
          · rw [h1] at h2; exact Option.some.inj h2
      rcases entry_cases (v := v) (i := i) hg hjp with ⟨c, _, e2, _⟩ | ⟨s, r, _, e2, _⟩
      · rw [e2] at hp; exact key hp
      · rw [e2] at hp
        by_cases hpe : p = nm v g i ++ ['@' :: s]
        · exfalso
          rcases hb.missing i j hs hj hT with h2 | h2
          · rw [e2] at h2
            have := congrArg List.length h2
            simp at this
          · rw [e2, ← hpe, h1] at h2; cases h2
        · refine key ?_
          have := prefix_dropLast hp hpe
          rwa [List.dropLast_concat] at this
    · exact new_above hb h.linked hs hjp hp h1
  -- homes are not among the new folders
  have hhome : ∀ k, IsPkg g k → home v g k <+: (entryFor v g i j).dropLast → home v g k ++ [nmWord] <+: (entryFor v g i j).dropLast := by
    intro k hk hp
    rcases hs with rfl | hi
    · exact absurd (head_of_home (hp.trans (List.dropLast_prefix _))) (root_entry_head hg hjp List.prefix_rfl)
    · have := home_apart hg hk hi (hp.trans (List.dropLast_prefix _)) (home_entry v g hi.1)
      subst this
      rcases entry_cases (v := v) (i := k) hg hjp with ⟨c, _, e2, _⟩ | ⟨s, r, _, e2, _⟩
      · rw [e2, nm_pkg v g hi.1]
      · rw [e2, nm_pkg v g hi.1]; exact List.prefix_append _ _
  unfold mkdirp
  by_cases hc : (entryFor v g i j).dropLast ∈ cache
  · rw [if_pos hc]
    refine ⟨t, cache, rfl, ?_, hc, fun _ h => h, h.dirs, h.closed, h.homes⟩
    intro p
    rw [if_neg]
    rintro ⟨h1, h2⟩
    have := h.dirs p (closed_prefix h.closed _ _ rfl hc p h1)
    rw [h2] at this; cases this
  · rw [if_neg hc]
    by_cases hpc : (entryFor v g i j).dropLast.dropLast ∈ cache
    · rw [if_pos hpc]
      have hnone : t (entryFor v g i j).dropLast = none := by
        rcases entry_cases (v := v) (i := i) hg hjp with ⟨c, _, e2, _⟩ | ⟨s, r, _, e2, _⟩
        · exfalso
          rcases hs with rfl | hi
          · rw [e2, nm_root] at hc; exact hc h.nil
          · rw [e2, nm_pkg v g hi.1] at hc hpc
            rw [List.dropLast_concat] at hpc
            exact hc (h.homes i hi hpc)
        · cases ht : t (entryFor v g i j).dropLast with
          | none => rfl
          | some e =>
            exfalso
            rcases (h.tree _ e).1 ht with h1 | ⟨_, h1⟩
            · rcases hb.missing i j hs hj hT with h2 | h2
              · rw [e2] at h2
                have := congrArg List.length h2
                simp at this
              · rw [h1] at h2; cases h2
            · rw [e2] at h1
              obtain ⟨l, l1, l2, l3⟩ := new_scope hb h.linked hs h1
              rw [e2, ← l3] at hc
              exact hc (h.scopes i l l1 l2)
      rw [if_pos hnone]
      refine ⟨_, _, rfl, ?_, List.mem_cons_self, fun c hc => List.mem_cons_of_mem _ hc, ?_, ?_, ?_⟩
      · intro p
        unfold put
        by_cases hp : p = (entryFor v g i j).dropLast
        · rw [if_pos hp, if_pos ⟨by rw [hp], by rw [hp]; exact hnone⟩]
        · rw [if_neg hp, if_neg]
          rintro ⟨h1, h2⟩
          have := h.dirs p (closed_prefix h.closed _ _ rfl hpc p (prefix_dropLast h1 hp))
          rw [h2] at this; cases this
      · intro c hcc
        unfold put
        split
        · rfl
        · rename_i hne
          exact h.dirs c ((List.mem_cons.1 hcc).resolve_left hne)
      · intro c hcc
        rcases List.mem_cons.1 hcc with rfl | hcc
        · exact List.mem_cons_of_mem _ hpc
        · exact List.mem_cons_of_mem _ (h.closed c hcc)
      · intro k hk hkc
        rcases List.mem_cons.1 hkc with hkc | hkc
        · exfalso
          have h1 := hhome k hk (by rw [hkc])
          rw [← hkc] at h1
          have := h1.length_le
          simp at this
          omega
        · exact List.mem_cons_of_mem _ (h.homes k hk hkc)
    · rw [if_neg hpc, if_neg]
      · refine ⟨_, _, rfl, ?_, ?_, ?_, ?_, ?_, ?_⟩
        · intro p
          simp only [List.mem_inits]
        · rw [List.mem_append]; exact .inl ((List.mem_inits _ _).2 List.prefix_rfl)
        · intro c hcc; rw [List.mem_append]; exact .inr hcc
        · intro c hcc
          split
          · rfl
          · rename_i hno
            rcases List.mem_append.1 hcc with hcc | hcc
            · cases ht : t c with
              | none => exact absurd ⟨hcc, ht⟩ hno
              | some e => rw [hq c e ((List.mem_inits _ _).1 hcc) ht]
            · exact h.dirs c hcc
        · intro c hcc
          rcases List.mem_append.1 hcc with hcc | hcc
          · exact List.mem_append.2 (.inl ((List.mem_inits _ _).2 ((List.dropLast_prefix _).trans ((List.mem_inits _ _).1 hcc))))
          · exact List.mem_append.2 (.inr (h.closed c hcc))
        · intro k hk hkc
          rcases List.mem_append.1 hkc with hkc | hkc
          · exact List.mem_append.2 (.inl ((List.mem_inits _ _).2 (hhome k hk ((List.mem_inits _ _).1 hkc))))
          · exact List.mem_append.2 (.inr (h.homes k hk hkc))
      · simp only [List.any_eq_true, Bool.and_eq_true, decide_eq_true_eq, not_exists, not_and, List.mem_inits]
        intro q hqp h1 h2
        cases ht : t q with
        | none => exact h1 ht
        | some e => exact h2 (by rw [ht, hq q e hqp ht])

theorem not_prefix_dropLast {p : Loc} (h : p ≠ []) : ¬ p <+: p.dropLast := by
  intro hp
  have h1 := hp.length_le
  have h2 := List.length_pos_iff.2 h
  rw [List.length_dropLast] at h1
  omega

theorem link_step {T0 : Tree} {Placed : Nat → Prop} {Linked : Nat → Nat → Prop} (hb : Base pk v g T0) {t : Tree} {cache : List Loc}
    (h : At pk v g T0 Placed Linked t cache) {i j : Nat} (hs : Src g i) (hp : i = 0 ∨ Placed i) (hj : j ∈ depsOf g i) (hnl : ¬ Linked i j) :
    ∃ y, linkDep v g i (t, cache) j = some y ∧ At pk v g T0 Placed (fun k l => Linked k l ∨ (k = i ∧ l = j)) y.1 y.2 := by
  have hg := hb.inst
  have hjp := dep_pkg hg hj
  have hlk : ∀ k l, (Linked k l ∨ (k = i ∧ l = j)) → Src g k ∧ l ∈ depsOf g k ∧ (k = 0 ∨ Placed k) := by
    rintro k l (kl | ⟨rfl, rfl⟩)
    · exact h.linked k l kl
    · exact ⟨hs, hj, hp⟩
  have hmono : ∀ q e, T0 q = some e → t q = some e := fun q e hq => (h.tree q e).2 (.inl hq)
  unfold linkDep
  dsimp only
  cases hT : T0 (entryFor v g i j) with
  | some e0 =>
    have hex : existsAt v t (entryFor v g i j) = true := by
      unfold existsAt
      rw [hmono _ _ hT]
      cases e0 with
      | dir => rfl
      | file c => rfl
      | link text =>
        obtain ⟨q, hq1, hq2⟩ := hb.links i j text hs hj hT
        dsimp only
        rw [hq1]
        dsimp only
        cases hTq : T0 q with
        | none => exact absurd hTq hq2
        | some e => rw [hmono q e hTq]; rfl
    rw [if_pos hex]
    refine ⟨_, rfl, ?_, hlk, h.nil, h.dirs, h.closed, h.homes, ?_⟩
    · intro p e
      dsimp only
      rw [h.tree p e]
      refine or_congr_right (and_congr_right fun _ => or_congr_right ?_)
      constructor
      · rintro ⟨k, l, kl, hk⟩; exact ⟨k, l, .inl kl, hk⟩
      · rintro ⟨k, l, kl | ⟨rfl, rfl⟩, kt, hk⟩
        · exact ⟨k, l, kl, kt, hk⟩
        · rw [hT] at kt; cases kt
    · rintro k l (kl | ⟨rfl, rfl⟩) kt
      · exact h.scopes k l kl kt
      · rw [hT] at kt; cases kt
  | none =>
    have hte : t (entryFor v g i j) = none := by
      cases ht : t (entryFor v g i j) with
      | none => rfl
      | some e =>
        exfalso
        rcases (h.tree _ e).1 ht with h1 | ⟨_, h1⟩
        · rw [hT] at h1; cases h1
        · exact hnl (new_entry hb h.linked hs hj h1)
    rw [if_neg (by unfold existsAt; rw [hte]; simp)]
    obtain ⟨t', cache', hm, ht', hqc, hsub, hdirs, hclosed, hhomes⟩ := mkdirp_step hb h hs hj hT
    rw [hm]
    have hnp := not_prefix_dropLast (entry_ne_nil (v := v) (i := i) hg hjp)
    have hte' : t' (entryFor v g i j) = none := by
      rw [ht', if_neg (fun hx => hnp hx.1), hte]
    simp only [Option.map_some, hte', if_true]
    have hput : ∀ c e, c ≠ entryFor v g i j → (put t' (entryFor v g i j) e) c = t' c := by
      intro c e hc; unfold put; rw [if_neg hc]
    refine ⟨_, rfl, ?_, hlk, hsub _ h.nil, ?_, hclosed, hhomes, ?_⟩
    · intro p e
      dsimp only
      have hadd : New pk v g T0 Placed (fun k l => Linked k l ∨ (k = i ∧ l = j)) p e ↔ New pk v g T0 Placed Linked p e ∨
          (p = entryFor v g i j ∧ e = .link (diff (home v g j) p.dropLast)) ∨ (e = .dir ∧ p <+: (entryFor v g i j).dropLast) := by
        constructor
        · rintro (hk | ⟨k, l, kl | ⟨rfl, rfl⟩, kt, hk⟩)
          · exact .inl (.inl hk)
          · exact .inl (.inr ⟨k, l, kl, kt, hk⟩)
          · exact .inr hk
        · rintro ((hk | ⟨k, l, kl, hk⟩) | hk)
          · exact .inl hk
          · exact .inr ⟨k, l, .inl kl, hk⟩
          · exact .inr ⟨i, j, .inr ⟨rfl, rfl⟩, hT, hk⟩
      rw [hadd]
      by_cases hpe : p = entryFor v g i j
      · subst hpe
        unfold put
        rw [if_pos rfl]
        constructor
        · intro he
          exact .inr ⟨hT, .inr (.inl ⟨rfl, (Option.some.inj he).symm⟩)⟩
        · rintro (he | ⟨_, hN | ⟨_, rfl⟩ | ⟨_, hx⟩⟩)
          · rw [hT] at he; cases he
          · exact absurd (new_entry hb h.linked hs hj hN) hnl
          · rfl
          · exact absurd hx hnp
      · rw [hput p _ hpe, ht']
        by_cases hpw : p <+: (entryFor v g i j).dropLast
        · cases hx : t p with
          | none =>
            rw [if_pos ⟨hpw, rfl⟩]
            have hTp : T0 p = none := by
              cases hTp : T0 p with
              | none => rfl
              | some e' => rw [hmono p e' hTp] at hx; cases hx
            constructor
            · intro he; exact .inr ⟨hTp, .inr (.inr ⟨(Option.some.inj he).symm, hpw⟩)⟩
            · rintro (he | ⟨_, hN | ⟨h1, _⟩ | ⟨rfl, _⟩⟩)
              · rw [hTp] at he; cases he
              · rw [(h.tree p e).2 (.inr ⟨hTp, hN⟩)] at hx; cases hx
              · exact absurd h1 hpe
              · rfl
          | some e' =>
            rw [if_neg (by simp), ← hx, h.tree p e]
            refine or_congr_right (and_congr_right fun hTp => ⟨.inl, ?_⟩)
            rintro (hN | ⟨h1, _⟩ | ⟨rfl, _⟩)
            · exact hN
            · exact absurd h1 hpe
            · rcases (h.tree p e').1 hx with h1 | ⟨_, h1⟩
              · rw [hTp] at h1; cases h1
              · have := new_above hb h.linked hs hjp hpw h1
                rw [← this]; exact h1
        · rw [if_neg (fun hx => hpw hx.1), h.tree p e]
          refine or_congr_right (and_congr_right fun hTp => ⟨.inl, ?_⟩)
          rintro (hN | ⟨h1, _⟩ | ⟨_, hw⟩)
          · exact hN
          · exact absurd h1 hpe
          · exact absurd hw hpw
    · intro c hc
      have hd := hdirs c hc
      have hce : c ≠ entryFor v g i j := by rintro rfl; rw [hte'] at hd; cases hd
      show put t' (entryFor v g i j) _ c = _
      rw [hput c _ hce, hd]
    · rintro k l (kl | ⟨rfl, rfl⟩) kt
      · exact hsub _ (h.scopes k l kl kt)
      · exact hqc

/-! ### all packages -/

theorem at_congr {T0 : Tree} {A A' : Nat → Prop} {B B' : Nat → Nat → Prop} {t : Tree} {cache : List Loc} (hA : ∀ i, A i ↔ A' i)
    (hB : ∀ i j, B i j ↔ B' i j) (h : At pk v g T0 A B t cache) : At pk v g T0 A' B' t cache := by
  have e1 : A = A' := funext fun i => propext (hA i)
  have e2 : B = B' := funext fun i => funext fun j => propext (hB i j)
  subst e1; subst e2; exact h

theorem links_all {T0 : Tree} {Placed : Nat → Prop} (hb : Base pk v g T0) {i : Nat} (hs : Src g i) (hp : i = 0 ∨ Placed i) :
    ∀ (l : List Nat) (Linked : Nat → Nat → Prop) (x : Tree × List Loc), l.Nodup → (∀ j ∈ l, j ∈ depsOf g i ∧ ¬ Linked i j) →
      At pk v g T0 Placed Linked x.1 x.2 →
      ∃ y, l.foldl (fun x j => x.bind fun x => linkDep v g i x j) (some x) = some y ∧
        At pk v g T0 Placed (fun k m => Linked k m ∨ (k = i ∧ m ∈ l)) y.1 y.2 := by
  intro l
  induction l with
  | nil =>
    intro Linked x _ _ h
    exact ⟨x, rfl, at_congr (fun _ => Iff.rfl) (fun _ _ => by simp) h⟩
  | cons j l ih =>
    intro Linked x hnd hl h
    rw [List.nodup_cons] at hnd
    obtain ⟨y, hy, hA⟩ := link_step hb h hs hp (hl j List.mem_cons_self).1 (hl j List.mem_cons_self).2
    obtain ⟨z, hz, hA'⟩ := ih _ y hnd.2 (by
      intro m hm
      refine ⟨(hl m (List.mem_cons_of_mem _ hm)).1, ?_⟩
      rintro (h1 | ⟨_, h1⟩)
      · exact (hl m (List.mem_cons_of_mem _ hm)).2 h1
      · exact hnd.1 (h1 ▸ hm)) hA
    refine ⟨z, ?_, at_congr (fun _ => Iff.rfl) ?_ hA'⟩
    · rw [List.foldl_cons, Option.bind_some, hy]; exact hz
    · intro k m
      rw [List.mem_cons]
      constructor
      · rintro ((h1 | ⟨h1, h2⟩) | ⟨h1, h2⟩)
        · exact .inl h1
        · exact .inr ⟨h1, .inl h2⟩
        · exact .inr ⟨h1, .inr h2⟩
      · rintro (h1 | ⟨h1, h2 | h2⟩)
        · exact .inl (.inl h1)
        · exact .inl (.inr ⟨h1, h2⟩)
        · exact .inr ⟨h1, h2⟩

theorem nodes_all {T0 : Tree} (hb : Base pk v g T0) :
    ∀ (l : List Nat) (Done : Nat → Prop) (x : Ext), l.Nodup → (∀ i ∈ l, Src g i ∧ ¬ Done i) →
      At pk v g T0 (fun i => i ≠ 0 ∧ Done i) (fun i j => Done i ∧ j ∈ depsOf g i) x.tree x.cache →
      ∃ y, l.foldl (fun x i => x.bind fun x => extractNode pk v g x i) (some x) = some y ∧
        At pk v g T0 (fun i => i ≠ 0 ∧ (Done i ∨ i ∈ l)) (fun i j => (Done i ∨ i ∈ l) ∧ j ∈ depsOf g i) y.tree y.cache ∧
        y.rebuild = x.rebuild ++ l.filter (isNew v g pk.scripts T0) ∧
        y.bins = x.bins ++ l.filter (isNew v g (fun q => !(pk.bins q).isEmpty) T0) := by
  intro l
  induction l with
  | nil =>
    intro Done x _ _ h
    exact ⟨x, rfl, at_congr (fun _ => by simp) (fun _ _ => by simp) h, by simp, by simp⟩
  | cons i l ih =>
    intro Done x hnd hl h
    rw [List.nodup_cons] at hnd
    obtain ⟨hs, hnd'⟩ := hl i List.mem_cons_self
    -- the package
    have hplace : ∃ y, placeNode pk v g x i = some y ∧ At pk v g T0 (fun k => k ≠ 0 ∧ (Done k ∨ k = i)) (fun k j => Done k ∧ j ∈ depsOf g k) y.tree y.cache := by
      rcases hs with rfl | hi
      · refine ⟨x, by simp [placeNode], at_congr (fun k => ?_) (fun _ _ => Iff.rfl) h⟩
        constructor
        · rintro ⟨h1, h2⟩; exact ⟨h1, .inl h2⟩
        · rintro ⟨h1, h2 | h2⟩
          · exact ⟨h1, h2⟩
          · exact absurd h2 h1
      · obtain ⟨y, h1, h2⟩ := place_step hb h hi (fun hx => hnd' hx.2)
        refine ⟨y, h1, at_congr (fun k => ?_) (fun _ _ => Iff.rfl) h2⟩
        constructor
        · rintro (⟨h1, h2⟩ | rfl)
          · exact ⟨h1, .inl h2⟩
          · exact ⟨hi.1, .inr rfl⟩
        · rintro ⟨h1, h2 | h2⟩
          · exact .inl ⟨h1, h2⟩
          · exact .inr h2
    obtain ⟨y, hy, hA⟩ := hplace
    obtain ⟨hL1, hL2⟩ := place_lists hb h hs (fun hx => hnd' hx.2) hy
    have hp : i = 0 ∨ (i ≠ 0 ∧ (Done i ∨ i = i)) := by
      by_cases h0 : i = 0
      · exact .inl h0
      · exact .inr ⟨h0, .inr rfl⟩
    obtain ⟨z, hz, hA'⟩ := links_all hb hs hp (depsOf g i) _ (y.tree, y.cache) (List.Nodup.of_map _ (hb.inst.single i)) (by
      intro j hj; exact ⟨hj, fun hx => hnd' hx.1⟩) hA
    obtain ⟨w, hw, hA'', hR1, hR2⟩ := ih (fun k => Done k ∨ k = i) { y with tree := z.1, cache := z.2 } hnd.2 (by
      intro k hk
      refine ⟨(hl k (List.mem_cons_of_mem _ hk)).1, ?_⟩
      rintro (h1 | h1)
      · exact (hl k (List.mem_cons_of_mem _ hk)).2 h1
      · exact hnd.1 (h1 ▸ hk)) (at_congr (fun _ => Iff.rfl) (fun k j => by
        constructor
        · rintro (⟨h1, h2⟩ | ⟨rfl, h2⟩)
          · exact ⟨.inl h1, h2⟩
          · exact ⟨.inr rfl, h2⟩
        · rintro ⟨h1 | h1, h2⟩
          · exact .inl ⟨h1, h2⟩
          · exact .inr ⟨h1, h1 ▸ h2⟩) hA')
    refine ⟨w, ?_, at_congr (fun k => ?_) (fun k j => ?_) hA'', ?_, ?_⟩
    · rw [List.foldl_cons, Option.bind_some]
      have : extractNode pk v g x i = some { y with tree := z.1, cache := z.2 } := by
        unfold extractNode
        rw [hy, Option.bind_some]
        unfold linkDeps
        rw [hz]; rfl
      rw [this]; exact hw
    · rw [List.mem_cons, or_assoc]
    · rw [List.mem_cons, or_assoc]
    · rw [hR1]; dsimp only; rw [hL1, List.append_assoc, ← List.filter_append]; rfl
    · rw [hR2]; dsimp only; rw [hL2, List.append_assoc, ← List.filter_append]; rfl

/-- extraction from a suitable tree succeeds in any order, and adds exactly what is missing -/
theorem extract_all {T0 : Tree} (hb : Base pk v g T0) {order : List Nat} (ho : Order g order) :
    ∃ y, extractAll pk v g order T0 = some y ∧
      At pk v g T0 (fun i => IsPkg g i) (fun i j => Src g i ∧ j ∈ depsOf g i) y.tree y.cache ∧
      y.rebuild = order.filter (isNew v g pk.scripts T0) ∧
      y.bins = order.filter (isNew v g (fun q => !(pk.bins q).isEmpty) T0) := by
  have hput : put T0 [] .dir = T0 := by
    funext p
    unfold put
    split
    · rename_i h; rw [h, hb.root]
    · rfl
  have hmem : ∀ i, i ∈ order ↔ Src g i := by
    intro i
    rw [ho.mem_iff, List.mem_range]
    have hr : 0 < g.nodes.length := by
      obtain ⟨nd, hn, _⟩ := hb.inst.tree.root
      exact (List.getElem?_eq_some_iff.1 hn).1
    constructor
    · intro h
      by_cases h0 : i = 0
      · exact .inl h0
      · exact .inr ⟨h0, _, List.getElem?_eq_getElem h⟩
    · rintro (rfl | ⟨_, nd, hn⟩)
      · exact hr
      · exact (List.getElem?_eq_some_iff.1 hn).1
  obtain ⟨y, hy, hA, hR1, hR2⟩ := nodes_all hb order (fun _ => False) ⟨T0, [[]], [], []⟩ (ho.nodup_iff.2 List.nodup_range) (fun i hi => ⟨(hmem i).1 hi, fun h => h⟩)
    { tree := by
        intro p e
        dsimp only
        constructor
        · intro h; exact .inl h
        · rintro (h | ⟨_, ⟨i, nd, _, _, ⟨_, h⟩, _⟩ | ⟨i, j, ⟨h, _⟩, _⟩⟩)
          · exact h
          · exact h.elim
          · exact h.elim
      linked := fun i j h => h.1.elim
      nil := by simp
      dirs := by intro c hc; rw [List.mem_singleton.1 hc]; exact hb.root
      closed := by intro c hc; rw [List.mem_singleton.1 hc]; simp
      homes := by intro i hi h; exact absurd (List.mem_singleton.1 h) (home_ne_nil v g i)
      scopes := fun i j h => h.1.elim }
  refine ⟨y, ?_, at_congr (fun i => ?_) (fun i j => ?_) hA, by rw [hR1]; rfl, by rw [hR2]; rfl⟩
  · unfold extractAll
    rw [if_neg (by rw [hb.root]; simp), hput]; exact hy
  · rw [false_or, hmem]
    constructor
    · rintro ⟨h1, h2⟩; exact h2.resolve_left h1
    · intro h; exact ⟨h.1, .inr h⟩
  · rw [false_or, hmem]

end
end

end Iso
end Oro
