import Verif.Props.Isolated
import Mathlib.Data.List.Induction
/-
C35, the isolated linker: commands.
-/
set_option linter.unusedSectionVars false
namespace Oro
namespace Iso
open Hoisted (Entry Tree Pkgs Disk storeName binName wiped)
variable {P S V I : Type}

section
variable {pk : Pkgs P} {v : Env} {g : Graph Str P S} {t : Tree}

/-- package `s` depends on a package called `b` that has something at `x` -/
def Serves (pk : Pkgs P) (g : Graph Str P S) (s : Nat) (b : Str) (x : Loc) : Prop :=
  ∃ l ∈ depsOf g s, nameOf g l = b ∧ ∃ nd, g.nodes[l]? = some nd ∧ pk.content nd.pkg x ≠ none

theorem nm_inj (hg : Installable pk v g) {k i : Nat} (hk : Src g k) (hi : Src g i) (h : nm v g k = nm v g i) : k = i := by
  rcases hk with rfl | hk <;> rcases hi with rfl | hi
  · rfl
  · rw [nm_root, nm_pkg v g hi.1] at h; simp at h
  · rw [nm_root, nm_pkg v g hk.1] at h; simp at h
  · rw [nm_pkg v g hi.1, nm_pkg v g hk.1] at h
    exact home_apart hg hk hi (by rw [List.append_cancel_right h]) List.prefix_rfl

theorem notBin_nm' (hg : Installable pk v g) {s : Nat} (hs : Src g s) : ¬ InBin (nm v g s) :=
  inBin_prefix (notBin_nm hg hs (c := ['a']) (by decide) (by decide) []) (List.prefix_append _ _)

theorem nameSegs_one {b : Str} (h : '/' ∉ b) : nameSegs b = [b] := splitChar_one h

/-- what is under a name in a folder of dependencies -/
theorem at_nm (hg : Installable pk v g) (ht : Installed pk v g t) {s : Nat} (hs : Src g s) {b : Str} (hb : FolderName b) (h1 : '/' ∉ b)
    (h2 : b ≠ storeName) (h3 : b ≠ binName) :
    (∀ l ∈ depsOf g s, nameOf g l = b → t (nm v g s ++ [b]) = some (.link (diff (home v g l) (nm v g s)))) ∧
    ((∀ l ∈ depsOf g s, nameOf g l ≠ b) → t (nm v g s ++ [b]) = none) := by
  have hn : ¬ InBin (nm v g s ++ [b]) := notBin_nm hg hs h3 h2 []
  have hx := exact_strip hg ht
  rw [← strip_of hn (t := t)]
  constructor
  · rintro l hl rfl
    have e : entryFor v g s l = nm v g s ++ [nameOf g l] := by unfold entryFor; rw [show PSpec.splitChar '/' (nameOf g l) = [nameOf g l] from nameSegs_one h1]
    rw [hx, expected_iff hg]
    refine .inr (.inr ⟨s, l, hs, hl, .inl ⟨e.symm, ?_⟩⟩)
    rw [List.dropLast_concat]
  · intro h
    apply Classical.byContradiction
    intro hne
    rw [← nameSegs_one h1] at hne
    obtain ⟨l, hl, hl'⟩ := declared_at hg hx hs hb h2 hne
    exact h l hl hl'

/-- what is in a package -/
theorem at_home (hg : Installable pk v g) (ht : Installed pk v g t) {l : Nat} {nd : Node Str P S} (l0 : l ≠ 0) (hl : g.nodes[l]? = some nd) {x : Loc}
    (h1 : x ≠ []) (h2 : x.head? ≠ some nmWord) : t (home v g l ++ x) = pk.content nd.pkg x := by
  have hp : IsPkg g l := ⟨l0, nd, hl⟩
  have hn : ¬ InBin (home v g l ++ x) := by
    rw [inBin_home hg hp]
    rintro ⟨y, rfl⟩
    exact h2 rfl
  have key : ∀ e, t (home v g l ++ x) = some e ↔ pk.content nd.pkg x = some e := by
    intro e
    rw [ht _ hn, expected_iff hg]
    constructor
    · rintro (⟨h, _⟩ | ⟨i, ni, i0, hi, ⟨r, h, hr⟩ | ⟨_, h⟩⟩ | ⟨k, m, hk, hm, h⟩)
      · exact absurd (List.append_eq_nil_iff.1 h).2 h1
      · have := home_apart hg hp ⟨i0, ni, hi⟩ (List.prefix_append _ x) (by rw [h]; exact List.prefix_append _ _)
        subst this
        rw [hl] at hi
        cases hi
        rw [List.append_cancel_left h]; exact hr
      · have := home_apart hg hp ⟨i0, ni, hi⟩ ((List.prefix_append _ x).trans h) List.prefix_rfl
        subst this
        have := h.length_le
        rw [List.length_append] at this
        have := List.length_pos_iff.2 h1
        omega
      · exfalso
        have h' : home v g l ++ x <+: entryFor v g k m := by
          rcases h with ⟨h, _⟩ | ⟨_, h⟩
          · rw [h]
          · exact h.trans (List.dropLast_prefix _)
        rcases hk with rfl | hk
        · exact root_entry_head hg (dep_pkg hg hm) h' rfl
        · have := home_apart hg hp hk ((List.prefix_append _ x).trans h') (home_entry v g hk.1)
          subst this
          unfold entryFor at h'
          rw [nm_pkg v g l0, List.append_assoc, List.prefix_append_right_inj] at h'
          exact h2 (head_of_prefix h' h1 rfl)
    · intro h
      exact .inr (.inl ⟨l, nd, l0, hl, .inl ⟨x, rfl, h⟩⟩)
  cases h : t (home v g l ++ x) with
  | some e => exact ((key e).1 h).symm
  | none =>
    cases h' : pk.content nd.pkg x with
    | none => rfl
    | some e => rw [(key e).2 h'] at h; cases h

theorem home_dir (hg : Installable pk v g) (ht : Installed pk v g t) {l : Nat} (hl : IsPkg g l) {q : Loc} (hq : q <+: home v g l) : t q = some .dir := by
  obtain ⟨nd, hn⟩ := hl.2
  rw [ht _ (inBin_prefix (notBin_home hg hl) hq), expected_iff hg]
  exact .inr (.inl ⟨l, nd, hl.1, hn, .inr ⟨rfl, hq⟩⟩)

theorem locate_down {d p : Loc} (h : ∀ q, q <+: p → q ≠ [] → q ≠ p → t (d ++ q) = some .dir) : locate v t d p = some (d ++ p) := by
  induction p generalizing d with
  | nil => simp [locate]
  | cons x p ih =>
    cases p with
    | nil => rfl
    | cons y r =>
      have h1 : t (d ++ [x]) = some .dir := h [x] ⟨y :: r, rfl⟩ (by simp) (by simp)
      simp only [locate, h1]
      rw [ih, List.append_assoc]; · rfl
      intro q hq h2 h3
      rw [List.append_assoc]
      exact h (x :: q) (by simpa using hq) (by simp) (by simpa using h3)

theorem locate_nolinks {d p q : Loc} (h : ∀ r text, r <+: p → r ≠ [] → t (d ++ r) ≠ some (.link text)) (hq : locate v t d p = some q) : q = d ++ p := by
  induction p generalizing d with
  | nil => simp [locate] at hq; simp [hq]
  | cons x p ih =>
    cases p with
    | nil => simp [locate] at hq; exact hq.symm
    | cons y r =>
      have h1 := fun text => h [x] text ⟨y :: r, rfl⟩ (by simp)
      simp only [locate] at hq
      cases ht : t (d ++ [x]) with
      | none => rw [ht] at hq; cases hq
      | some e =>
        cases e with
        | dir =>
          rw [ht] at hq
          dsimp only at hq
          rw [ih _ hq, List.append_assoc]; · rfl
          intro q text hq h2
          rw [List.append_assoc]
          exact h (x :: q) text (by simpa using hq) (by simp)
        | file c => rw [ht] at hq; cases hq
        | link text => exact absurd ht (h1 text)

/-- when a command is linked -/
theorem serves_iff (hg : Installable pk v g) (ht : Installed pk v g t) {s : Nat} (hs : Src g s) {b : Str} {x : Loc} (hb : FolderName b) (h1 : '/' ∉ b)
    (h2 : b ≠ storeName) (h3 : b ≠ binName) (h4 : x ≠ []) (h5 : x.head? ≠ some nmWord) :
    ((locate v t (nm v g s) (b :: x)).bind t).isNone = false ↔ Serves pk g s b x := by
  obtain ⟨a1, a2⟩ := at_nm hg ht hs hb h1 h2 h3
  obtain ⟨y, r, rfl⟩ := List.exists_cons_of_ne_nil h4
  by_cases hd : ∃ l ∈ depsOf g s, nameOf g l = b
  · obtain ⟨l, hl, hlb⟩ := hd
    obtain ⟨nd, hn⟩ := (dep_pkg hg hl).2
    have l0 := (dep_pkg hg hl).1
    have e : locate v t (nm v g s) (b :: y :: r) = locate v t (home v g l) (y :: r) := by
      simp only [locate, a1 l hl hlb]
      rw [resolve_diff hg (dep_pkg hg hl), Option.bind_some, if_pos (home_dir hg ht (dep_pkg hg hl) List.prefix_rfl)]
    have hat : ∀ q, q <+: y :: r → q ≠ [] → t (home v g l ++ q) = pk.content nd.pkg q := by
      intro q hq hq0
      refine at_home hg ht l0 hn hq0 ?_
      rw [head_of_prefix hq hq0 rfl]
      exact h5
    rw [e]
    constructor
    · intro h
      refine ⟨l, hl, hlb, nd, hn, ?_⟩
      cases hz : locate v t (home v g l) (y :: r) with
      | none => rw [hz] at h; cases h
      | some q =>
        have := locate_nolinks (fun r' text hr' h0 => by rw [hat r' hr' h0]; exact hg.noLinks l nd r' text (dep_pkg hg hl).1 hn) hz
        subst this
        rw [hz, Option.bind_some, hat _ List.prefix_rfl (by simp)] at h
        intro h'
        rw [h'] at h
        cases h
    · rintro ⟨l', hl', hlb', nd', hn', hc⟩
      have := name_dep hg hl hl' (by rw [hlb, hlb'])
      subst this
      rw [hn] at hn'
      cases hn'
      rw [locate_down, Option.bind_some, hat _ List.prefix_rfl (by simp)]
      · cases hx : pk.content nd.pkg (y :: r) with
        | none => exact absurd hx hc
        | some e => rfl
      · rintro q ⟨z, hz⟩ hq0 hq1
        rw [hat q ⟨z, hz⟩ hq0]
        refine hg.folders l nd q z (dep_pkg hg hl).1 hn ?_ (by rw [hz]; exact hc)
        rintro rfl
        rw [List.append_nil] at hz
        exact hq1 hz
  · have hn := a2 fun l hl hx => hd ⟨l, hl, hx⟩
    have e : locate v t (nm v g s) (b :: y :: r) = none := by simp only [locate, hn]
    rw [e]
    constructor
    · intro h; cases h
    · rintro ⟨l, hl, hlb, _⟩
      exact absurd ⟨l, hl, hlb⟩ hd

/-- the text of the link for a command -/
theorem bin_text {d x : Loc} {b : Str} (hb : b ≠ binName) : diff (d ++ b :: x) (d ++ [binName]) = dotdot :: b :: x := by
  induction d with
  | nil => simp [diff, hb]
  | cons c d ih => simp [diff, ih]

/-! ### one command after the other -/

/-- the state while the commands are linked, starting without commands: `done` are those seen -/
structure Linked (pk : Pkgs P) (v : Env) (g : Graph Str P S) (done : List (Nat × Str × Loc)) (z : Tree × List Loc) : Prop where
  inst : Installed pk v g z.1
  dirs : ∀ s, Src g s → (z.1 (nm v g s ++ [binName]) = none ∧ nm v g s ++ [binName] ∉ z.2) ∨
    (z.1 (nm v g s ++ [binName]) = some .dir ∧ nm v g s ++ [binName] ∈ z.2)
  only : ∀ p e, InBin p → z.1 p = some e → ∃ s, Src g s ∧ ((p = nm v g s ++ [binName] ∧ e = .dir) ∨
    ∃ b x, p = nm v g s ++ [binName, b] ∧ (s, b, x) ∈ done ∧ Serves pk g s b x ∧ e = .link (dotdot :: b :: x))
  all : ∀ s b x, (s, b, x) ∈ done → Serves pk g s b x → z.1 (nm v g s ++ [binName]) = some .dir ∧ z.1 (nm v g s ++ [binName, b]) ≠ none

/-- making the folder -/
theorem mkdir_bin (hg : Installable pk v g) {done : List (Nat × Str × Loc)} {z : Tree × List Loc} (hz : Linked pk v g done z) {s : Nat} (hs : Src g s)
    (hd : depsOf g s ≠ []) : ∃ c, mkdirp z.1 z.2 (nm v g s ++ [binName]) = some (put z.1 (nm v g s ++ [binName]) .dir, c) ∧
      nm v g s ++ [binName] ∈ c ∧ ∀ s', Src g s' → s' ≠ s → (nm v g s' ++ [binName] ∈ c ↔ nm v g s' ++ [binName] ∈ z.2) := by
  have hput : z.1 (nm v g s ++ [binName]) = some .dir → put z.1 (nm v g s ++ [binName]) .dir = z.1 := by
    intro h
    funext q
    unfold put
    split
    · rename_i hq; rw [hq, h]
    · rfl
  have hother : ∀ s', Src g s' → s' ≠ s → nm v g s' ++ [binName] ≠ nm v g s ++ [binName] := by
    intro s' hs' hne h
    exact hne (nm_inj hg hs' hs (List.append_cancel_right h))
  unfold mkdirp
  rcases hz.dirs s hs with ⟨h1, h2⟩ | ⟨h1, h2⟩
  · rw [if_neg h2]
    split
    · refine ⟨(nm v g s ++ [binName]) :: z.2, rfl, by simp, ?_⟩
      intro s' hs' hne
      simp [hother s' hs' hne]
    · have hdir : ∀ q, q <+: nm v g s → z.1 q = some .dir := by
        intro q hq
        obtain ⟨l, hl⟩ := List.exists_mem_of_ne_nil _ hd
        rw [hz.inst q (inBin_prefix (notBin_nm' hg hs) hq), expected_iff hg]
        refine .inr (.inr ⟨s, l, hs, hl, .inr ⟨rfl, hq.trans ?_⟩⟩)
        unfold entryFor
        rw [List.dropLast_append_of_ne_nil (segs_nonempty hg (dep_pkg hg hl))]
        exact List.prefix_append _ _
      rw [if_neg]
      · refine ⟨(nm v g s ++ [binName]).inits ++ z.2, ?_, ?_, ?_⟩
        · congr 2
          funext q
          unfold put
          by_cases hq : q = nm v g s ++ [binName]
          · subst hq
            rw [if_pos ⟨by simp, h1⟩, if_pos rfl]
          · rw [if_neg hq, if_neg]
            rintro ⟨hq1, hq2⟩
            rw [List.mem_inits] at hq1
            rcases List.prefix_concat_iff.1 hq1 with h | h
            · exact hq h
            · rw [hdir q h] at hq2; cases hq2
        · simp
        · intro s' hs' hne
          rw [List.mem_append]
          constructor
          · rintro (h | h)
            · exfalso
              rw [List.mem_inits] at h
              rcases List.prefix_concat_iff.1 h with h | h
              · exact hother s' hs' hne h
              · exact notBin_nm' hg hs (by obtain ⟨r, hr⟩ := h; rw [← hr]; exact inBin_up (inBin_nm hg hs' []) r)
            · exact h
          · exact .inr
      · intro h
        obtain ⟨q, hq, hx⟩ := List.any_eq_true.1 h
        rw [List.mem_inits] at hq
        simp only [Bool.and_eq_true, decide_eq_true_eq] at hx
        rcases List.prefix_concat_iff.1 hq with h | h
        · rw [h] at hx; exact hx.1 h1
        · exact hx.2 (hdir q h)
  · rw [if_pos h2, hput h1]
    exact ⟨z.2, rfl, h2, fun _ _ _ => Iff.rfl⟩

theorem link_one (hg : Installable pk v g) {done : List (Nat × Str × Loc)} {z : Tree × List Loc} (hz : Linked pk v g done z) {s : Nat} (hs : Src g s)
    {b : Str} {x : Loc} (hb : FolderName b) (h1 : '/' ∉ b) (h2 : b ≠ storeName) (h3 : b ≠ binName) (h4 : x ≠ []) (h5 : x.head? ≠ some nmWord) :
    ∃ z', linkBin v g z s (b, x) = some z' ∧ Linked pk v g (done ++ [(s, b, x)]) z' := by
  have hser := serves_iff hg hz.inst hs hb h1 h2 h3 h4 h5 (v := v)
  unfold linkBin
  dsimp only
  by_cases hsv : Serves pk g s b x
  · rw [if_neg (by rw [hser.2 hsv]; simp)]
    obtain ⟨l, hl, _⟩ := id hsv
    obtain ⟨c, hm, hc1, hc2⟩ := mkdir_bin hg hz hs (List.ne_nil_of_mem hl)
    rw [hm, Option.map_some, bin_text h3]
    refine ⟨_, rfl, ?_⟩
    have hbin : InBin (nm v g s ++ [binName, b]) := inBin_nm hg hs [b]
    have hbin' : InBin (nm v g s ++ [binName]) := inBin_nm hg hs []
    -- the new tree
    have hT : ∀ q, replace (put z.1 (nm v g s ++ [binName]) .dir) (nm v g s ++ [binName, b]) (.link (dotdot :: b :: x)) q =
        if q = nm v g s ++ [binName, b] then some (.link (dotdot :: b :: x)) else if nm v g s ++ [binName, b] <+: q then none
        else if q = nm v g s ++ [binName] then some .dir else z.1 q := by
      intro q
      unfold replace put
      by_cases hq : q = nm v g s ++ [binName, b]
      · rw [if_pos hq, if_pos hq]
      · rw [if_neg hq, if_neg hq]
        simp only [List.isPrefixOf_iff_prefix]
    -- the folders
    have hdirs : ∀ s', Src g s' → replace (put z.1 (nm v g s ++ [binName]) .dir) (nm v g s ++ [binName, b]) (.link (dotdot :: b :: x)) (nm v g s' ++ [binName]) =
        if s' = s then some .dir else z.1 (nm v g s' ++ [binName]) := by
      intro s' hs'
      have hnp : ¬ nm v g s ++ [binName, b] <+: nm v g s' ++ [binName] := by
        intro h
        rcases List.prefix_concat_iff.1 h with h | h
        · have := congrArg List.getLast? h
          simp at this
          exact h3 this
        · obtain ⟨r, hr⟩ := h
          exact notBin_nm' hg hs' (by rw [← hr]; exact inBin_up hbin r)
      rw [hT, if_neg (fun h => hnp (by rw [h])), if_neg hnp]
      by_cases he : s' = s
      · rw [if_pos (by rw [he]), if_pos he]
      · rw [if_neg (fun h => he (nm_inj hg hs' hs (List.append_cancel_right h))), if_neg he]
    refine ⟨?_, ?_, ?_, ?_⟩
    · intro p hp e
      rw [← hz.inst p hp e]
      dsimp only
      rw [hT, if_neg (fun h => hp (by rw [h]; exact hbin)), if_neg (fun h => hp (by obtain ⟨r, rfl⟩ := h; exact inBin_up hbin r)),
        if_neg (fun h => hp (by rw [h]; exact hbin'))]
    · intro s' hs'
      dsimp only
      rw [hdirs s' hs']
      by_cases he : s' = s
      · subst he
        rw [if_pos rfl]
        exact .inr ⟨rfl, hc1⟩
      · rw [if_neg he, hc2 s' hs' he]
        exact hz.dirs s' hs'
    · intro p e hp he
      dsimp only at he
      rw [hT] at he
      split at he
      · rename_i hq
        cases he
        exact ⟨s, hs, .inr ⟨b, x, hq, by simp, hsv, rfl⟩⟩
      · split at he
        · cases he
        · split at he
          · rename_i hq
            cases he
            exact ⟨s, hs, .inl ⟨hq, rfl⟩⟩
          · obtain ⟨s', hs', h | ⟨b', x', h, hm', hr⟩⟩ := hz.only p e hp he
            · exact ⟨s', hs', .inl h⟩
            · exact ⟨s', hs', .inr ⟨b', x', h, by simp [hm'], hr⟩⟩
    · intro s' b' x' hm' hsv'
      obtain ⟨l', hl', _⟩ := id hsv'
      have hs' : Src g s' := by
        unfold depsOf at hl'
        rw [List.mem_map] at hl'
        obtain ⟨a, ha, _⟩ := hl'
        rw [List.mem_filter] at ha
        obtain ⟨nd, hn⟩ := hg.sources a ha.1
        have := of_decide_eq_true ha.2
        rw [this] at hn
        exact src_of hn
      dsimp only
      rw [hdirs s' hs']
      rw [List.mem_append, List.mem_singleton] at hm'
      have hne : (s', b') = (s, b) ∨ (s', b', x') ∈ done := by
        rcases hm' with h | h
        · exact .inr h
        · exact .inl (by cases h; rfl)
      constructor
      · split
        · rfl
        · rename_i hss
          rcases hne with h | h
          · cases h; exact absurd rfl hss
          · exact (hz.all s' b' x' h hsv').1
      · rw [hT]
        by_cases hq : nm v g s' ++ [binName, b'] = nm v g s ++ [binName, b]
        · rw [if_pos hq]; simp
        · rcases hne with h | h
          · cases h; exact absurd rfl hq
          · have hold := (hz.all s' b' x' h hsv').2
            rw [if_neg hq, if_neg, if_neg]
            · exact hold
            · intro h
              have := congrArg List.getLast? h
              simp at this
              have h' : nm v g s' ++ [binName, binName] = nm v g s ++ [binName] := by rw [this] at h; exact h
              have h'' : nm v g s' ++ [binName] = nm v g s := by
                rw [show nm v g s' ++ [binName, binName] = (nm v g s' ++ [binName]) ++ [binName] by simp] at h'
                exact List.append_cancel_right h'
              exact notBin_nm' hg hs (by rw [← h'']; exact inBin_nm hg hs' [])
            · intro h
              rw [show nm v g s' ++ [binName, b'] = (nm v g s' ++ [binName]) ++ [b'] by simp] at h
              rcases List.prefix_concat_iff.1 h with h | h
              · exact hq (by rw [h]; simp)
              · rcases List.prefix_concat_iff.1 h with h | ⟨r, hr⟩
                · have := congrArg List.getLast? h
                  simp at this
                  exact h3 this
                · exact notBin_nm' hg hs' (by rw [← hr]; exact inBin_up hbin r)
  · rw [if_pos]
    · refine ⟨z, rfl, hz.inst, hz.dirs, ?_, ?_⟩
      · intro p e hp he
        obtain ⟨s', hs', h | ⟨b', x', h, hm', hr⟩⟩ := hz.only p e hp he
        · exact ⟨s', hs', .inl h⟩
        · exact ⟨s', hs', .inr ⟨b', x', h, by simp [hm'], hr⟩⟩
      · intro s' b' x' hm' hsv'
        rw [List.mem_append, List.mem_singleton] at hm'
        rcases hm' with h | h
        · exact hz.all s' b' x' h hsv'
        · cases h; exact absurd hsv' hsv
    · cases h : ((locate v z.1 (nm v g s) (b :: x)).bind z.1).isNone with
      | true => rfl
      | false => exact absurd (hser.1 h) hsv

theorem link_all (hg : Installable pk v g) : ∀ (l : List (Nat × Str × Loc)) (done : List (Nat × Str × Loc)) (z : Tree × List Loc), Linked pk v g done z →
    (∀ c ∈ l, Src g c.1 ∧ FolderName c.2.1 ∧ '/' ∉ c.2.1 ∧ c.2.1 ≠ storeName ∧ c.2.1 ≠ binName ∧ c.2.2 ≠ [] ∧ c.2.2.head? ≠ some nmWord) →
    ∃ z', l.foldl (fun z c => z.bind fun z => linkBin v g z c.1 c.2) (some z) = some z' ∧ Linked pk v g (done ++ l) z' := by
  intro l
  induction l with
  | nil => intro done z hz _; exact ⟨z, rfl, by simpa using hz⟩
  | cons c l ih =>
    intro done z hz hl
    obtain ⟨a1, a2, a3, a4, a5, a6, a7⟩ := hl c List.mem_cons_self
    obtain ⟨z', h1, h2⟩ := link_one hg hz a1 a2 a3 a4 a5 a6 a7
    obtain ⟨z'', h3, h4⟩ := ih _ z' h2 fun c' hc' => hl c' (List.mem_cons_of_mem _ hc')
    refine ⟨z'', ?_, by simpa using h4⟩
    rw [List.foldl_cons, Option.bind_some]
    have : linkBin v g z c.1 c.2 = some z' := h1
    rw [this]
    exact h3

theorem mem_jobs {i s : Nat} {b : Str} {x : Loc} : (s, b, x) ∈ jobs pk g i ↔ i ∈ depsOf g s ∧ ∃ nd, g.nodes[i]? = some nd ∧ (b, x) ∈ pk.bins nd.pkg := by
  unfold jobs depsOf
  simp only [List.mem_flatMap, List.mem_map, List.mem_reverse, List.mem_filter, decide_eq_true_eq, Prod.mk.injEq]
  constructor
  · rintro ⟨s', ⟨e, ⟨he, h1⟩, h2⟩, c, hc, h3, h4⟩
    subst h2 h3 h4
    refine ⟨⟨e, ⟨he, rfl⟩, h1⟩, ?_⟩
    cases hn : g.nodes[i]? with
    | none => rw [hn] at hc; simp at hc
    | some nd => rw [hn] at hc; exact ⟨nd, rfl, hc⟩
  · rintro ⟨⟨e, ⟨he, h1⟩, h2⟩, nd, hn, hc⟩
    refine ⟨s, ⟨e, ⟨he, h2⟩, h1⟩, (b, x), ?_, rfl, rfl⟩
    rw [hn]
    exact hc

/-! ### what a command opens -/

theorem opens_up {d p q : Loc} (h : Opens t d p q) (y : Loc) : Opens t (d ++ y) (List.replicate y.length dotdot ++ p) q := by
  induction y using List.reverseRecOn with
  | nil => simpa using h
  | append_singleton y x ih =>
    rw [← List.append_assoc, List.length_append, List.length_singleton, List.replicate_succ, List.cons_append]
    exact .up _ x _ q ih

theorem opens_down {d p r q : Loc} (hdd : dotdot ∉ p) (hp : ∀ a, a <+: p → a ≠ [] → t (d ++ a) = some .dir) (h : Opens t (d ++ p) r q) : Opens t d (p ++ r) q := by
  induction p generalizing d with
  | nil => simpa using h
  | cons x p ih =>
    rw [List.cons_append]
    refine .into d x _ q (fun hx => hdd (by simp [hx])) (hp [x] ⟨p, rfl⟩ (by simp)) (ih (fun hx => hdd (by simp [hx])) ?_ (by simpa using h))
    intro a ha h0
    rw [List.append_assoc]
    exact hp (x :: a) (by simpa using ha) (by simp)

theorem diff_form (x y : Loc) : ∃ c r y', diff x y = List.replicate y'.length dotdot ++ r ∧ x = c ++ r ∧ y = c ++ y' := by
  induction x generalizing y with
  | nil => exact ⟨[], [], y, by simp [diff], rfl, rfl⟩
  | cons a x ih =>
    cases y with
    | nil => exact ⟨[], a :: x, [], by simp [diff], rfl, rfl⟩
    | cons b y =>
      by_cases h : a = b
      · subst h
        obtain ⟨c, r, y', h1, h2, h3⟩ := ih y
        exact ⟨a :: c, r, y', by simp [diff, h1], by simp [h2], by simp [h3]⟩
      · exact ⟨[], a :: x, b :: y, by simp [diff, h], rfl, rfl⟩

/-- a path leads to one place only -/
theorem opens_unique {d p q q' : Loc} (h : Opens t d p q) (h' : Opens t d p q') : q = q' := by
  induction h generalizing q' with
  | here d hd => cases h'; rfl
  | up d x p q _ ih =>
    generalize hd : d ++ [x] = d' at h'
    cases h' with
    | up e y _ _ h2 =>
      have := List.append_inj' hd rfl
      rw [← this.1] at h2
      exact ih h2
    | into _ _ _ _ h1 => exact absurd rfl h1
    | file _ _ _ h1 => exact absurd rfl h1
    | link _ _ _ _ _ h1 => exact absurd rfl h1
  | into d x p q h1 h2 _ ih =>
    cases h' with
    | up => exact absurd rfl h1
    | into _ _ _ _ _ _ h3 => exact ih h3
    | file _ _ _ _ h3 => rw [h2] at h3; cases h3
    | link _ _ _ _ _ _ h3 => rw [h2] at h3; cases h3
  | file d x c h1 h2 =>
    cases h' with
    | up => exact absurd rfl h1
    | into _ _ _ _ _ h3 => rw [h2] at h3; cases h3
    | file => rfl
    | link _ _ _ _ _ _ h3 => rw [h2] at h3; cases h3
  | link d x text p q h1 h2 _ _ ih =>
    cases h' with
    | up => exact absurd rfl h1
    | into _ _ _ _ _ h3 => rw [h2] at h3; cases h3
    | file _ _ _ _ h3 => rw [h2] at h3; cases h3
    | link _ _ _ _ _ _ h3 _ h4 => rw [h2] at h3; cases h3; exact ih h4

/-- the way to a dependency's file -/
theorem opens_dep (hg : Installable pk v g) (ht : Installed pk v g t) {s l : Nat} (hs : Src g s) (hl : l ∈ depsOf g s) {b : Str} (hlb : nameOf g l = b)
    (hb : FolderName b) (h1 : '/' ∉ b) (h2 : b ≠ storeName) (h3 : b ≠ binName) (h4 : b ≠ dotdot) {x : Loc} (h5 : x ≠ []) (h6 : x.head? ≠ some nmWord)
    (h7 : dotdot ∉ x) {nd : Node Str P S} (hn : g.nodes[l]? = some nd) {c : List UInt8} (hc : pk.content nd.pkg x = some (.file c)) :
    Opens t (nm v g s) (b :: x) (home v g l ++ x) := by
  have hlp := dep_pkg hg hl
  obtain ⟨p1, p2⟩ := home_parts hg hlp (v := v)
  refine .link _ b _ _ _ h4 ((at_nm hg ht hs hb h1 h2 h3).1 l hl hlb) (diff_head p2) ?_
  obtain ⟨d, r, y, e1, e2, e3⟩ := diff_form (home v g l) (nm v g s)
  rw [e1, e3, List.append_assoc]
  refine opens_up (opens_down (p := r) (fun h => p1 (by rw [e2]; simp [h])) ?_ ?_) y
  · intro a ha _
    refine home_dir hg ht hlp ?_
    rw [e2]
    exact (List.prefix_append_right_inj d).2 ha
  · rw [← e2]
    obtain ⟨w, z, rfl⟩ : ∃ w z, x = w ++ [z] := by
      rcases List.eq_nil_or_concat x with h | ⟨w, z, h⟩
      · exact absurd h h5
      · exact ⟨w, z, by simpa using h⟩
    have hat : ∀ q, q <+: w ++ [z] → q ≠ [] → t (home v g l ++ q) = pk.content nd.pkg q := by
      intro q hq hq0
      refine at_home hg ht hlp.1 hn hq0 ?_
      rw [head_of_prefix hq hq0 (c := ((w ++ [z]).head?).getD []) (by cases w <;> rfl)]
      intro h
      apply h6
      cases w <;> simpa using h
    refine opens_down (fun h => h7 (by simp [h])) ?_ ?_
    · intro a ha h0
      rw [hat a (ha.trans (List.prefix_append _ _)) h0]
      obtain ⟨k, hk⟩ := ha
      refine hg.folders l nd a (k ++ [z]) hlp.1 hn (by simp) ?_
      rw [← List.append_assoc, hk, hc]
      simp
    · have := hat (w ++ [z]) List.prefix_rfl (by simp)
      rw [← List.append_assoc] at this ⊢
      exact .file _ z c (fun h => h7 (by simp [h])) (by rw [this, hc])

end

/-! ### C35: commands in an isolated node_modules -/

theorem fresh_wiped (pk : Pkgs P) (v : Env) (g : Graph Str P S) (d : Disk V I) (hd : Fresh d)
    (order : List Nat) : install pk v g order d = extractAll pk v g order wiped := by
  unfold install
  obtain ⟨hm, hn | hr⟩ := hd
  · unfold prune
    rw [if_pos (hn [])]
    unfold extractAll
    have e1 : put d.tree [] .dir = put wiped [] .dir := by
      funext p; unfold put wiped; split <;> [rfl; simp [hn p, *]]
    rw [if_neg (by rw [hn]; simp), if_neg (by simp [wiped]), e1]
  · unfold prune
    rw [if_neg (by rw [hr]; simp), if_pos (by rw [hm]; rfl)]

theorem fresh_lists (pk : Pkgs P) (v : Env) (g : Graph Str P S) (hg : Installable pk v g) (d : Disk V I) (hd : Fresh d)
    (order : List Nat) (ho : Order g order) : ∃ y, install pk v g order d = some y ∧ y.rebuild = order.filter (isNew v g pk.scripts wiped) ∧
      y.bins = order.filter (isNew v g (fun q => !(pk.bins q).isEmpty) wiped) := by
  obtain ⟨y, hy, _, h1, h2⟩ := extract_all (wiped_base hg) ho
  exact ⟨y, by rw [fresh_wiped pk v g d hd order, hy], h1, h2⟩

/-- before the commands are linked, after a first install -/
theorem fresh_ready (pk : Pkgs P) (v : Env) (g : Graph Str P S) (hg : Installable pk v g) (hp : PlainCommands pk g) (d : Disk V I) (hd : Fresh d)
    (order : List Nat) (ho : Order g order) : ∃ y, install pk v g order d = some y ∧ Linked pk v g [] (y.tree, y.cache) ∧
      (∀ s b x, (s, b, x) ∈ y.bins.reverse.flatMap (jobs pk g) ↔ ∃ i nd, i ∈ depsOf g s ∧ g.nodes[i]? = some nd ∧ (b, x) ∈ pk.bins nd.pkg) ∧
      ∀ c ∈ y.bins.reverse.flatMap (jobs pk g), Src g c.1 ∧ FolderName c.2.1 ∧ '/' ∉ c.2.1 ∧ c.2.1 ≠ storeName ∧ c.2.1 ≠ binName ∧ c.2.2 ≠ [] ∧
        c.2.2.head? ≠ some nmWord := by
  obtain ⟨y, hy, hi⟩ := C46_fresh pk v g hg d hd order ho
  have hw := fresh_wiped pk v g d hd order
  obtain ⟨y', hy', _, _, hbins⟩ := extract_all (wiped_base hg) ho
  rw [hw, hy'] at hy
  cases hy
  have hgood : Good v wiped := by
    intro p text q _ h
    unfold wiped at h
    split at h <;> cases h
  have hcache : ∀ c ∈ y.cache, ¬ InBin c := by
    rcases extractAll_rel hg ho (t := wiped) (t' := wiped) (fun _ _ => rfl) hgood with ⟨h, _⟩ | ⟨a, b, h1, h2, h3⟩
    · rw [hy'] at h; cases h
    · rw [hy'] at h2; cases h2
      exact h3.1.2.2.2
  have hL : Linked pk v g [] (y.tree, y.cache) := by
    have hnone : ∀ p, InBin p → y.tree p = none := by
      intro p hpb
      cases h : y.tree p with
      | none => rfl
      | some e => exact absurd hpb (expected_notBin hg ((hi p e).1 h))
    refine ⟨installed_of_exact hi, ?_, ?_, ?_⟩
    · intro s hs
      exact .inl ⟨hnone _ (inBin_nm hg hs []), fun h => hcache _ h (inBin_nm hg hs [])⟩
    · intro p e hpb h
      have h : y.tree p = some e := h
      rw [hnone p hpb] at h; cases h
    · intro s b x h; cases h
  have hjobs : ∀ s b x, (s, b, x) ∈ y.bins.reverse.flatMap (jobs pk g) ↔ ∃ i nd, i ∈ depsOf g s ∧ g.nodes[i]? = some nd ∧ (b, x) ∈ pk.bins nd.pkg := by
    intro s b x
    rw [List.mem_flatMap]
    constructor
    · rintro ⟨i, _, h⟩
      obtain ⟨h1, nd, h2, h3⟩ := mem_jobs.1 h
      exact ⟨i, nd, h1, h2, h3⟩
    · rintro ⟨i, nd, h1, h2, h3⟩
      refine ⟨i, ?_, mem_jobs.2 ⟨h1, nd, h2, h3⟩⟩
      have i0 := (dep_pkg hg h1).1
      rw [List.mem_reverse, hbins, List.mem_filter]
      refine ⟨?_, ?_⟩
      · rw [ho.mem_iff, List.mem_range]
        exact (List.getElem?_eq_some_iff.1 h2).1
      · have : wiped (home v g i) = none := if_neg (home_ne_nil v g i)
        have hne : (pk.bins nd.pkg).isEmpty = false := by
          cases hb : pk.bins nd.pkg with
          | nil => rw [hb] at h3; cases h3
          | cons => rfl
        simp [isNew, i0, this, h2, hne]
  refine ⟨y, by rw [hw, hy'], hL, hjobs, ?_⟩
  rintro ⟨s, b, x⟩ hc
  obtain ⟨i, nd, h1, h2, h3⟩ := (hjobs s b x).1 hc
  obtain ⟨a1, a2, a3, a4, _⟩ := hp.name i nd b x h2 h3
  obtain ⟨b1, b2, _⟩ := hp.file i nd b x h2 h3
  refine ⟨?_, a1, a2, a3, a4, b1, b2⟩
  unfold depsOf at h1
  rw [List.mem_map] at h1
  obtain ⟨a, ha, _⟩ := h1
  rw [List.mem_filter] at ha
  obtain ⟨nd, hn⟩ := hg.sources a ha.1
  have := of_decide_eq_true ha.2
  rw [this] at hn
  exact src_of hn

/-- everything that is noted, after a first install -/
theorem apply_fresh (pk : Pkgs P) (v : Env) (g : Graph Str P S) (hg : Installable pk v g) (hp : PlainCommands pk g) (d : Disk V I) (hd : Fresh d)
    (order : List Nat) (ho : Order g order) : ∃ z done, apply pk v g order d = some z ∧ Linked pk v g done z ∧
      ∀ s b x, (s, b, x) ∈ done ↔ ∃ i nd, i ∈ depsOf g s ∧ g.nodes[i]? = some nd ∧ (b, x) ∈ pk.bins nd.pkg := by
  obtain ⟨y, hy, hL, hjobs, hc⟩ := fresh_ready pk v g hg hp d hd order ho
  obtain ⟨z, hz, hzl⟩ := link_all hg (y.bins.reverse.flatMap (jobs pk g)) [] (y.tree, y.cache) hL hc
  refine ⟨z, _, ?_, by simpa using hzl, hjobs⟩
  unfold apply
  rw [hy, Option.bind_some]
  exact hz

theorem src_of_dep (hg : Installable pk v g) {s l : Nat} (h : l ∈ depsOf g s) : Src g s := by
  unfold depsOf at h
  rw [List.mem_map] at h
  obtain ⟨a, ha, _⟩ := h
  rw [List.mem_filter] at ha
  obtain ⟨nd, hn⟩ := hg.sources a ha.1
  have := of_decide_eq_true ha.2
  rw [this] at hn
  exact src_of hn

/-- what a linked command opens -/
theorem command_opens {pk : Pkgs P} {v : Env} {g : Graph Str P S} (hg : Installable pk v g) (hp : PlainCommands pk g) {done : List (Nat × Str × Loc)} {z : Tree × List Loc}
    (hz : Linked pk v g done z) {s l j : Nat} {nl nj : Node Str P S} {b : Str} {x : Loc} {c : List UInt8} (hl : l ∈ depsOf g s) (hn : g.nodes[l]? = some nl)
    (hlb : nl.name = b) (hj : g.nodes[j]? = some nj) (hjx : (b, x) ∈ pk.bins nj.pkg)
    (hx : pk.content nl.pkg x = some (.file c)) (hd : (s, b, x) ∈ done) (hu : ∀ x', (s, b, x') ∈ done → x' = x) :
    Opens z.1 (nm v g s) [binName, b] (home v g l ++ x) := by
  have hs := src_of_dep hg hl
  obtain ⟨a1, a2, a3, a4, a5⟩ := hp.name j nj b x hj hjx
  obtain ⟨b1, b2, b3⟩ := hp.file j nj b x hj hjx
  have hlb' : nameOf g l = b := by rw [nameOf_eq hn, hlb]
  obtain ⟨h1, h2⟩ := hz.all s b x hd ⟨l, hl, hlb', nl, hn, by rw [hx]; simp⟩
  obtain ⟨e, he⟩ := Option.ne_none_iff_exists'.1 h2
  obtain ⟨s', hs', ⟨h, _⟩ | ⟨b', x', h, hm, _, rfl⟩⟩ := hz.only _ e (inBin_nm hg hs [b]) he
  · exfalso
    have := congrArg List.getLast? h
    simp at this
    exact a4 this
  · rw [show nm v g s ++ [binName, b] = (nm v g s ++ [binName]) ++ [b] by simp, show nm v g s' ++ [binName, b'] = (nm v g s' ++ [binName]) ++ [b'] by simp] at h
    obtain ⟨h3, h4⟩ := List.append_inj' h rfl
    have h3 := nm_inj hg hs hs' (List.append_cancel_right h3)
    cases h4
    subst h3
    have := hu x' hm
    subst this
    refine .into _ _ _ _ (by decide) h1 ?_
    refine .link _ b _ _ _ a5 (by simpa using he) (by simp [dotdot]) ?_
    rw [List.append_nil]
    exact .up _ _ _ _ (opens_dep hg hz.inst hs hl hlb' a1 a2 a3 a4 a5 b1 b2 b3 hn hx)

/-- C35, the isolated linker: after a first install everything is as C46 says, and a command that is called like the package
declaring it, and that no other dependency declares, is there for each package that depends on it (and the project), and
opens the file the package declares, and nothing else. -/
theorem C35_isolated_partial (pk : Pkgs P) (v : Env) (g : Graph Str P S) (hg : Installable pk v g) (hp : PlainCommands pk g) (d : Disk V I) (hd : Fresh d)
    (order : List Nat) (ho : Order g order) : ∃ z, apply pk v g order d = some z ∧ Installed pk v g z.1 ∧
      ∀ (s l : Nat) (nl : Node Str P S) b x c, l ∈ depsOf g s → g.nodes[l]? = some nl → nl.name = b → (b, x) ∈ pk.bins nl.pkg →
        pk.content nl.pkg x = some (.file c) →
        (∀ (j : Nat) (nj : Node Str P S) x', j ∈ depsOf g s → g.nodes[j]? = some nj → (b, x') ∈ pk.bins nj.pkg → j = l) →
        Opens z.1 (nm v g s) [binName, b] (home v g l ++ x) ∧ ∀ q, Opens z.1 (nm v g s) [binName, b] q → q = home v g l ++ x := by
  obtain ⟨z, done, hz, hL, hdone⟩ := apply_fresh pk v g hg hp d hd order ho
  refine ⟨z, hz, hL.inst, ?_⟩
  intro s l nl b x c hl hn hlb hb hx hu
  have := command_opens hg hp hL hl hn hlb hn hb hx ((hdone s b x).2 ⟨l, nl, hl, hn, hb⟩) (by
    intro x' hx'
    obtain ⟨i, ni, h1, h2, h3⟩ := (hdone s b x').1 hx'
    have := hu i ni x' h1 h2 h3
    subst this
    rw [hn] at h2
    cases h2
    exact hp.once i nl b x' x hn h3 hb)
  exact ⟨this, fun q hq => opens_unique hq this⟩

/-- C35, the isolated linker: whatever is in a folder for commands after a first install is a link for a command that a
dependency declares. -/
theorem C35_isolated_only (pk : Pkgs P) (v : Env) (g : Graph Str P S) (hg : Installable pk v g) (hp : PlainCommands pk g) (d : Disk V I) (hd : Fresh d)
    (order : List Nat) (ho : Order g order) (z : Tree × List Loc) (hz : apply pk v g order d = some z) (p : Loc) (e : Entry) (hb : InBin p) (he : z.1 p = some e) :
    ∃ (s : Nat) (ns : Node Str P S), g.nodes[s]? = some ns ∧ ((p = nm v g s ++ [binName] ∧ e = .dir) ∨
      ∃ (j : Nat) (nj : Node Str P S) (b : Str) (x : Loc), j ∈ depsOf g s ∧ g.nodes[j]? = some nj ∧ (b, x) ∈ pk.bins nj.pkg ∧
        p = nm v g s ++ [binName, b] ∧ e = .link (dotdot :: b :: x)) := by
  obtain ⟨z', done, hz', hL, hdone⟩ := apply_fresh pk v g hg hp d hd order ho
  rw [hz] at hz'
  cases hz'
  obtain ⟨s, hs, h⟩ := hL.only p e hb he
  obtain ⟨ns, hns⟩ := src_node hg hs
  refine ⟨s, ns, hns, ?_⟩
  rcases h with h | ⟨b, x, h, hm, _, rfl⟩
  · exact .inl h
  · obtain ⟨i, ni, h1, h2, h3⟩ := (hdone s b x).1 hm
    exact .inr ⟨i, ni, b, x, h1, h2, h3, h, rfl⟩

/-- C35 is false of the isolated linker: a command that is not called like one of the dependencies is not there, whoever
declares it. -/
theorem C35_isolated_names_fails (pk : Pkgs P) (v : Env) (g : Graph Str P S) (hg : Installable pk v g) (hp : PlainCommands pk g) (d : Disk V I) (hd : Fresh d)
    (order : List Nat) (ho : Order g order) : ∃ z, apply pk v g order d = some z ∧
      ∀ (s : Nat) (ns : Node Str P S) b, g.nodes[s]? = some ns → b ≠ binName → (∀ (l : Nat) (nl : Node Str P S), l ∈ depsOf g s → g.nodes[l]? = some nl → nl.name ≠ b) →
        z.1 (nm v g s ++ [binName, b]) = none := by
  obtain ⟨z, done, hz, hL, hdone⟩ := apply_fresh pk v g hg hp d hd order ho
  refine ⟨z, hz, ?_⟩
  intro s ns b hns hbb hno
  have hs := src_of hns
  cases he : z.1 (nm v g s ++ [binName, b]) with
  | none => rfl
  | some e =>
    exfalso
    obtain ⟨s', hs', ⟨h, _⟩ | ⟨b', x', h, hm, ⟨l, hl, hlb, nl, hn, _⟩, _⟩⟩ := hL.only _ e (inBin_nm hg hs [b]) he
    · have := congrArg List.getLast? h
      simp at this
      exact hbb this
    · rw [show nm v g s ++ [binName, b] = (nm v g s ++ [binName]) ++ [b] by simp, show nm v g s' ++ [binName, b'] = (nm v g s' ++ [binName]) ++ [b'] by simp] at h
      obtain ⟨h3, h4⟩ := List.append_inj' h rfl
      have h3 := nm_inj hg hs hs' (List.append_cancel_right h3)
      cases h4
      subst h3
      exact hno l nl hl hn (by rw [← nameOf_eq hn]; exact hlb)

/-- C35 is false of the isolated linker: a command that one dependency declares and that is called like another dependency opens
a file of that other one, if it has one at the same place. -/
theorem C35_isolated_wrong_fails (pk : Pkgs P) (v : Env) (g : Graph Str P S) (hg : Installable pk v g) (hp : PlainCommands pk g) (d : Disk V I) (hd : Fresh d)
    (order : List Nat) (ho : Order g order) : ∃ z, apply pk v g order d = some z ∧
      ∀ (s l j : Nat) (nl nj : Node Str P S) b x c, l ∈ depsOf g s → j ∈ depsOf g s → l ≠ j → g.nodes[l]? = some nl → g.nodes[j]? = some nj → nl.name = b →
        (b, x) ∈ pk.bins nj.pkg → pk.content nl.pkg x = some (.file c) →
        (∀ (k : Nat) (nk : Node Str P S) x', k ∈ depsOf g s → g.nodes[k]? = some nk → (b, x') ∈ pk.bins nk.pkg → k = j) →
        Opens z.1 (nm v g s) [binName, b] (home v g l ++ x) ∧ ¬ home v g j <+: home v g l ++ x := by
  obtain ⟨z, done, hz, hL, hdone⟩ := apply_fresh pk v g hg hp d hd order ho
  refine ⟨z, hz, ?_⟩
  intro s l j nl nj b x c hl hj hne hnl hnj hlb hb hx hu
  refine ⟨command_opens hg hp hL hl hnl hlb hnj hb hx ((hdone s b x).2 ⟨j, nj, hj, hnj, hb⟩) ?_, ?_⟩
  · intro x' hx'
    obtain ⟨i, ni, h1, h2, h3⟩ := (hdone s b x').1 hx'
    have := hu i ni x' h1 h2 h3
    subst this
    rw [hnj] at h2
    cases h2
    exact hp.once i nj b x' x hnj h3 hb
  · intro h
    exact hne (home_apart hg (dep_pkg hg hl) (dep_pkg hg hj) (List.prefix_append _ _) h)

/-- C73, the isolated linker: the packages whose install scripts will run after a first install are exactly those that have
one, each once; those whose commands will be linked are exactly those that declare some. -/
theorem C73_isolated_pending (pk : Pkgs P) (v : Env) (g : Graph Str P S) (hg : Installable pk v g) (d : Disk V I) (hd : Fresh d)
    (order : List Nat) (ho : Order g order) : ∃ y, install pk v g order d = some y ∧
      (∀ i, i ∈ y.rebuild ↔ ∃ nd, i ≠ 0 ∧ g.nodes[i]? = some nd ∧ pk.scripts nd.pkg = true) ∧ y.rebuild.Nodup ∧
      (∀ i, i ∈ y.bins ↔ ∃ nd, i ≠ 0 ∧ g.nodes[i]? = some nd ∧ pk.bins nd.pkg ≠ []) ∧ y.bins.Nodup := by
  obtain ⟨y, hy, hscr, hbins⟩ := fresh_lists pk v g hg d hd order ho
  have hnd : order.Nodup := ho.nodup_iff.2 List.nodup_range
  have hw : ∀ i, wiped (home v g i) = none := fun i => if_neg (home_ne_nil v g i)
  refine ⟨y, hy, ?_, ?_, ?_, ?_⟩
  · intro i
    rw [hscr, List.mem_filter, ho.mem_iff, List.mem_range]
    constructor
    · rintro ⟨hi, h⟩
      have hn := List.getElem?_eq_getElem hi
      rw [isNew, hn, hw] at h
      simp at h
      exact ⟨_, h.1, hn, h.2⟩
    · rintro ⟨nd, h1, h2, h3⟩
      refine ⟨(List.getElem?_eq_some_iff.1 h2).1, ?_⟩
      rw [isNew, h2, hw]
      simp [h1, h3]
  · rw [hscr]; exact hnd.filter _
  · intro i
    rw [hbins, List.mem_filter, ho.mem_iff, List.mem_range]
    constructor
    · rintro ⟨hi, h⟩
      have hn := List.getElem?_eq_getElem hi
      rw [isNew, hn, hw] at h
      simp at h
      exact ⟨_, h.1, hn, h.2⟩
    · rintro ⟨nd, h1, h2, h3⟩
      refine ⟨(List.getElem?_eq_some_iff.1 h2).1, ?_⟩
      rw [isNew, h2, hw]
      simp [h1, h3]
  · rw [hbins]; exact hnd.filter _

/-! ### adding a package later -/

section
variable {pk : Pkgs P} {v : Env} {g : Graph Str P S}

/-- the folder for the project's commands is on disk but not in the cache -/
structure Stale (pk : Pkgs P) (v : Env) (g : Graph Str P S) (z : Tree × List Loc) : Prop where
  inst : Installed pk v g z.1
  there : z.1 [binName] = some .dir
  root : [] ∈ z.2
  unknown : [binName] ∉ z.2

theorem stale_fails (hg : Installable pk v g) {z : Tree × List Loc} (hz : Stale pk v g z) {b : Str} {x : Loc} (hb : FolderName b) (h1 : '/' ∉ b) (h2 : b ≠ storeName)
    (h3 : b ≠ binName) (h4 : x ≠ []) (h5 : x.head? ≠ some nmWord) (hs : Serves pk g 0 b x) : linkBin v g z 0 (b, x) = none := by
  have hser := serves_iff hg hz.inst (.inl rfl) hb h1 h2 h3 h4 h5 (v := v)
  unfold linkBin
  dsimp only
  rw [if_neg (by rw [hser.2 hs]; simp), nm_root]
  have : mkdirp z.1 z.2 [binName] = none := by
    unfold mkdirp
    rw [if_neg hz.unknown, if_pos (by exact hz.root), if_neg (by rw [hz.there]; simp)]
  show Option.map _ (mkdirp z.1 z.2 [binName]) = none
  rw [this]
  rfl

theorem stale_step (hg : Installable pk v g) {z z' : Tree × List Loc} (hz : Stale pk v g z) {s : Nat} (hs : Src g s) {b : Str} {x : Loc} (hb : FolderName b) (h1 : '/' ∉ b)
    (h2 : b ≠ storeName) (h3 : b ≠ binName) (h4 : x ≠ []) (h5 : x.head? ≠ some nmWord) (h : linkBin v g z s (b, x) = some z') : Stale pk v g z' := by
  have hser := serves_iff hg hz.inst hs hb h1 h2 h3 h4 h5 (v := v)
  by_cases hsv : Serves pk g s b x
  · rcases hs with rfl | hs'
    · rw [stale_fails hg hz hb h1 h2 h3 h4 h5 hsv] at h; cases h
    · have hs : Src g s := .inr hs'
      unfold linkBin at h
      dsimp only at h
      rw [if_neg (by rw [hser.2 hsv]; simp)] at h
      obtain ⟨y, hy, rfl⟩ := Option.map_eq_some_iff.1 h
      have hbin : InBin (nm v g s ++ [binName, b]) := inBin_nm hg hs [b]
      have hbin' : InBin (nm v g s ++ [binName]) := inBin_nm hg hs []
      have hstore : ∀ r, nm v g s ++ r ≠ [binName] := by
        intro r h
        rw [nm_pkg v g hs'.1] at h
        have := congrArg List.head? h
        rw [List.append_assoc, List.head?_append, home_head] at this
        simp [storeName, binName] at this
      have hstore' : ¬ [binName] <+: nm v g s ++ [binName] := by
        intro h
        have := head_of_prefix h (by simp) (c := storeName) (by rw [nm_pkg v g hs'.1, List.append_assoc, List.head?_append, home_head]; rfl)
        simp [storeName, binName] at this
      have hstore'' : ∀ r, ¬ nm v g s ++ r <+: [binName] := by
        intro r h
        have := head_of_prefix h (by rw [nm_pkg v g hs'.1]; simp [home]) rfl
        rw [nm_pkg v g hs'.1, List.append_assoc, List.head?_append, home_head] at this
        simp [storeName, binName] at this
      have hdir : ∀ q, q <+: nm v g s → z.1 q = some .dir := by
        intro q hq
        obtain ⟨l, hl, _⟩ := hsv
        rw [hz.inst q (inBin_prefix (notBin_nm' hg hs) hq), expected_iff hg]
        refine .inr (.inr ⟨s, l, hs, hl, .inr ⟨rfl, hq.trans ?_⟩⟩)
        unfold entryFor
        rw [List.dropLast_append_of_ne_nil (segs_nonempty hg (dep_pkg hg hl))]
        exact List.prefix_append _ _
      have hy' : (∀ q, q ≠ nm v g s ++ [binName] → y.1 q = z.1 q) ∧ [] ∈ y.2 ∧ [binName] ∉ y.2 := by
        unfold mkdirp at hy
        split at hy
        · cases hy; exact ⟨fun _ _ => rfl, hz.root, hz.unknown⟩
        · split at hy
          · split at hy
            · cases hy
              refine ⟨fun q hq => if_neg hq, by simp [hz.root], ?_⟩
              rw [List.mem_cons, not_or]
              exact ⟨fun h => hstore [binName] h.symm, hz.unknown⟩
            · cases hy
          · split at hy
            · cases hy
            · cases hy
              refine ⟨?_, by simp [hz.root], ?_⟩
              · intro q hq
                dsimp only
                rw [if_neg]
                rintro ⟨hq1, hq2⟩
                rw [List.mem_inits] at hq1
                rcases List.prefix_concat_iff.1 hq1 with h | h
                · exact hq h
                · rw [hdir q h] at hq2; cases hq2
              · rw [List.mem_append, not_or, List.mem_inits]
                exact ⟨hstore', hz.unknown⟩
      obtain ⟨y1, y2, y3⟩ := hy'
      refine ⟨?_, ?_, y2, y3⟩
      · intro p hp e
        rw [← hz.inst p hp e]
        dsimp only
        unfold replace
        rw [if_neg (fun h => hp (by rw [h]; exact hbin)), if_neg, y1 p (fun h => hp (by rw [h]; exact hbin'))]
        rw [List.isPrefixOf_iff_prefix]
        rintro ⟨r, rfl⟩
        exact hp (inBin_up hbin r)
      · dsimp only
        unfold replace
        rw [if_neg (fun h => hstore _ h.symm), if_neg, y1 _ (fun h => hstore _ h.symm)]
        · exact hz.there
        · rw [List.isPrefixOf_iff_prefix]
          exact hstore'' _
  · unfold linkBin at h
    dsimp only at h
    rw [if_pos] at h
    · cases h; exact hz
    · cases h' : ((locate v z.1 (nm v g s) (b :: x)).bind z.1).isNone with
      | true => rfl
      | false => exact absurd (hser.1 h') hsv

theorem stale_all (hg : Installable pk v g) : ∀ (l : List (Nat × Str × Loc)) (z : Tree × List Loc), Stale pk v g z →
    (∀ c ∈ l, Src g c.1 ∧ FolderName c.2.1 ∧ '/' ∉ c.2.1 ∧ c.2.1 ≠ storeName ∧ c.2.1 ≠ binName ∧ c.2.2 ≠ [] ∧ c.2.2.head? ≠ some nmWord) →
    (∃ c ∈ l, c.1 = 0 ∧ Serves pk g 0 c.2.1 c.2.2) → l.foldl (fun z c => z.bind fun z => linkBin v g z c.1 c.2) (some z) = none := by
  intro l
  induction l with
  | nil => rintro z _ _ ⟨c, hc, _⟩; cases hc
  | cons c l ih =>
    intro z hz hl hc
    obtain ⟨a1, a2, a3, a4, a5, a6, a7⟩ := hl c List.mem_cons_self
    rw [List.foldl_cons, Option.bind_some]
    cases hx : linkBin v g z c.1 c.2 with
    | none => exact fold_bind_none l
    | some z' =>
      refine ih z' (stale_step hg hz a1 a2 a3 a4 a5 a6 a7 hx) (fun c' hc' => hl c' (List.mem_cons_of_mem _ hc')) ?_
      obtain ⟨c', hc', h0, hs⟩ := hc
      rcases List.mem_cons.1 hc' with rfl | hc'
      · exfalso
        rw [h0] at hx
        rw [show c'.2 = (c'.2.1, c'.2.2) from rfl, stale_fails hg hz a2 a3 a4 a5 a6 a7 hs] at hx
        cases hx
      · exact ⟨c', hc', h0, hs⟩

end

/-- C35 is false of the isolated linker: once the project has a folder for commands, adding a dependency that has a command
called like itself makes applying fail (the folder is made again, without asking whether it exists). -/
theorem C35_isolated_again_fails (pk : Pkgs P) (v : Env) (g0 g : Graph Str P S) (h0 : Installable pk v g0) (hg : Installable pk v g) (hp : PlainCommands pk g)
    (hc : Compatible pk v g0 g) (d : Disk V I) (hd : Installed pk v g0 d.tree) (hu : Usable d) (hb : d.tree [binName] = some .dir)
    (order : List Nat) (ho : Order g order) (j : Nat) (nj : Node Str P S) (b : Str) (x : Loc) (hj : j ∈ depsOf g 0) (hn : g.nodes[j]? = some nj) (hname : nj.name = b)
    (hx : (b, x) ∈ pk.bins nj.pkg) (hf : pk.content nj.pkg x ≠ none) (hnew : d.tree (home v g j) = none) :
    (∃ y, install pk v g order d = some y ∧ Installed pk v g y.tree) ∧ apply pk v g order d = none := by
  obtain ⟨y, hy, hi⟩ := C46_update_partial pk v g0 g h0 hg hc d hd order ho
  refine ⟨⟨y, hy, hi⟩, ?_⟩
  have hx0 := exact_strip h0 hd
  have hu' : Usable (⟨strip d.tree, d.metaFile⟩ : Disk V I) := by
    refine ⟨?_, hu.2.1, ?_⟩
    · show strip d.tree [] ≠ none
      rw [strip_of notBin_nil]; exact hu.1
    · have : ¬ InBin [storeName] := by
        intro h
        generalize hq : [storeName] = q at h
        cases h with
        | project z => exact absurd (List.cons.inj hq).1 (by decide)
        | package a n z h1 h2 h3 => have := congrArg List.length hq; simp at this
        | scope a s n z h1 => have := congrArg List.length hq; simp at this
      show strip d.tree [storeName] ≠ none
      rw [strip_of this]; exact hu.2.2
  have hbase := pruned_base h0 hg hc hx0
  obtain ⟨y', hy', hA, _, hbins⟩ := extract_all hbase ho
  have hy'' : install pk v g order (⟨strip d.tree, d.metaFile⟩ : Disk V I) = some y' := by
    unfold install
    rw [prune_usable hu']
    exact hy'
  rcases install_rel (d := d) (d' := ⟨strip d.tree, d.metaFile⟩) hg ho rfl (rel_strip _) (good_exact h0 (installed_of_exact hx0)) with ⟨h, _⟩ | ⟨a, b', e1, e2, ⟨⟨r1, r2, r3, r4⟩, r5, r6⟩⟩
  · rw [hy] at h; cases h
  · rw [hy] at e1
    rw [hy''] at e2
    cases e1
    cases e2
    dsimp only at r1 r2 r3 r4
    have hstale : Stale pk v g (y.tree, y.cache) := by
      refine ⟨hi, ?_, ?_, ?_⟩
      · have h1 : y.tree [binName] = prune v g d [binName] := keeps_extract hg ho hy _ (.project [])
        show y.tree [binName] = _
        rw [h1, C47_stale_fails pk v g hg d hu binName (by decide) _ []]
        · exact hb
        · intro k hk hkn
          obtain ⟨nk, hnk⟩ := (dep_pkg hg hk).2
          exact hg.noBin k nk (dep_pkg hg hk).1 hnk (by rw [← nameOf_eq hnk]; exact hkn)
      · show [] ∈ y.cache
        rw [r3]; exact hA.nil
      · intro h
        have h : [binName] ∈ y.cache := h
        rw [r3] at h
        exact r4 _ h (.project [])
    unfold apply
    rw [hy, Option.bind_some]
    refine stale_all hg _ _ hstale ?_ ⟨(0, b, x), ?_, rfl, ?_⟩
    · rintro ⟨s, b, x⟩ hc
      rw [List.mem_flatMap] at hc
      obtain ⟨i, _, hc⟩ := hc
      obtain ⟨h1, nd, h2, h3⟩ := mem_jobs.1 hc
      obtain ⟨a1, a2, a3, a4, _⟩ := hp.name i nd b x h2 h3
      obtain ⟨b1, b2, _⟩ := hp.file i nd b x h2 h3
      exact ⟨src_of_dep hg h1, a1, a2, a3, a4, b1, b2⟩
    · rw [List.mem_flatMap]
      refine ⟨j, ?_, mem_jobs.2 ⟨hj, nj, hn, hx⟩⟩
      rw [List.mem_reverse, r6, hbins, List.mem_filter]
      refine ⟨?_, ?_⟩
      · rw [ho.mem_iff, List.mem_range]
        exact (List.getElem?_eq_some_iff.1 hn).1
      · have hnone : pruned v g (strip d.tree) (home v g j) = none := by
          refine pruned_of_none (d := (⟨strip d.tree, d.metaFile⟩ : Disk V I)) ?_
          show strip d.tree _ = none
          rw [strip_of (notBin_home hg (dep_pkg hg hj)), hnew]
        have hne : (pk.bins nj.pkg).isEmpty = false := by
          cases hb : pk.bins nj.pkg with
          | nil => rw [hb] at hx; cases hx
          | cons => rfl
        simp [isNew, (dep_pkg hg hj).1, hnone, hn, hne]
    · exact ⟨j, hj, by rw [nameOf_eq hn, hname], nj, hn, hf⟩

/-! ### examples -/

namespace Ex
theorem installable_bins {pk pk' : Pkgs Nat} {v : Env} {g : Graph Str Nat Nat} (h : pk.content = pk'.content) (hg : Installable pk v g) : Installable pk' v g :=
  { tree := hg.tree, order := hg.order, names := hg.names, plain := hg.plain, folders := h ▸ hg.folders, dirs := h ▸ hg.dirs, bundled := h ▸ hg.bundled,
    noBin := hg.noBin, noLinks := h ▸ hg.noLinks, known := hg.known, sources := hg.sources, single := hg.single, absolute := hg.absolute,
    digits := hg.digits, apart := hg.apart }

/-- only package 3, which is called so, has the command `c` -/
def pk3 : Pkgs Nat := { pk with bins := fun n => if n = 7 then [(['c'], [pj])] else [] }
/-- only package 1 has the command `c` -/
def pk1 : Pkgs Nat := { pk with bins := fun n => if n = 1 then [(['c'], [pj])] else [] }

/-- the command of `a` is called `a`, that of `c` is called `c` -/
def pka : Pkgs Nat := { pk with bins := fun n => if n = 1 then [(['a'], [pj])] else if n = 7 then [(['c'], [pj])] else [] }

theorem plain_of {pk' : Pkgs Nat} {g : Graph Str Nat Nat} (h : ∀ n, pk'.bins n = [] ∨ pk'.bins n = [(['a'], [pj])] ∨ pk'.bins n = [(['c'], [pj])]) : PlainCommands pk' g := by
  have key : ∀ n b x, (b, x) ∈ pk'.bins n → x = [pj] ∧ (b = ['a'] ∨ b = ['c']) := by
    intro n b x hm
    rcases h n with h | h | h <;> rw [h] at hm
    · cases hm
    · simp only [List.mem_singleton, Prod.mk.injEq] at hm; exact ⟨hm.2, .inl hm.1⟩
    · simp only [List.mem_singleton, Prod.mk.injEq] at hm; exact ⟨hm.2, .inr hm.1⟩
  refine ⟨?_, ?_, ?_⟩
  · intro i nd b x _ hm
    obtain ⟨_, rfl | rfl⟩ := key _ b x hm
    · exact ⟨nameA, by decide, by decide, by decide, by decide⟩
    · exact ⟨nameC, by decide, by decide, by decide, by decide⟩
  · intro i nd b x _ hm
    obtain ⟨rfl, _⟩ := key _ b x hm
    exact ⟨by decide, by decide, by decide⟩
  · intro i nd b x x' _ hm hm'
    rw [(key _ b x hm).1, (key _ b x' hm').1]

theorem plain_3 (g : Graph Str Nat Nat) : PlainCommands pk3 g := plain_of fun n => by
  unfold pk3; dsimp only; split <;> simp
theorem plain_1 (g : Graph Str Nat Nat) : PlainCommands pk1 g := plain_of fun n => by
  unfold pk1; dsimp only; split <;> simp
theorem plain_a (g : Graph Str Nat Nat) : PlainCommands pka g := plain_of fun n => by
  unfold pka; dsimp only; split
  · simp
  · split <;> simp

theorem quad_order : Order quad [2, 0, 1, 3] := by unfold Order; decide +kernel
theorem fresh_ : Fresh none_ := ⟨rfl, .inl fun _ => rfl⟩

/-- C35_isolated_partial: the command of `c`, for the project -/
example : ∃ z, apply pk3 v quad [2, 0, 1, 3] none_ = some z ∧ Opens z.1 [] [binName, ['c']] (home v quad 3 ++ [pj]) := by
  obtain ⟨z, h1, _, h2⟩ := C35_isolated_partial pk3 v quad (installable_bins (pk := pk) rfl inst_quad) (plain_3 quad) none_ fresh_ [2, 0, 1, 3] quad_order
  refine ⟨z, h1, (h2 0 3 _ ['c'] [pj] [7] (by decide) rfl rfl (by decide) rfl ?_).1⟩
  intro j nj x' hj hn hb
  have hj' : j = 1 ∨ j = 2 ∨ j = 3 := by simp [depsOf, quad] at hj; exact hj
  rcases hj' with rfl | rfl | rfl
  · cases hn; simp [pk3] at hb
  · cases hn; simp [pk3] at hb
  · rfl

/-- the tree `quad` with something else in `@s/b` -/
def quad' : Graph Str Nat Nat :=
  ⟨[⟨[], 0, [], none, [(['a'], 1), (sb, 2), (['c'], 3)], []⟩, ⟨['a'], 1, [], some 0, [], []⟩, ⟨sb, 5, [], some 0, [], []⟩, ⟨['c'], 7, [], some 0, [], []⟩],
   [⟨0, 1, 0, .prod⟩, ⟨0, 2, 0, .prod⟩, ⟨1, 2, 0, .prod⟩, ⟨0, 3, 0, .prod⟩]⟩

/-- C35_isolated_wrong_fails: the command `c` of `a` opens a file of `c` -/
example : ((apply pk1 v quad' [2, 0, 1, 3] none_).map fun z => z.1 [binName, ['c']]) = some (some (.link [dotdot, ['c'], pj])) ∧
    (∀ j ∈ depsOf quad' 0, ∀ nj, quad'.nodes[j]? = some nj → pk1.bins nj.pkg ≠ [] → j = 1) := by
  refine ⟨by decide +kernel, ?_⟩
  intro j hj nj hn hb
  have hj' : j = 1 ∨ j = 2 ∨ j = 3 := by simp [depsOf, quad'] at hj; exact hj
  rcases hj' with rfl | rfl | rfl
  · rfl
  · cases hn; simp [pk1] at hb
  · cases hn; simp [pk1] at hb

/-- C35_isolated_names_fails: the command `c` of `a` is not there -/
example : ((apply pk1 v (tri 1) [2, 0, 1] none_).map fun z => z.1 [binName, ['c']]) = some none := by
  decide +kernel

/-- C35_isolated_again_fails: first `a` with the command `a`, then also `c` with the command `c` -/
example : ∃ z : Tree × List Loc, apply pka v (tri 1) [2, 0, 1] none_ = some z ∧ apply pka v quad [3, 0, 2, 1] (⟨z.1, some []⟩ : Disk Nat Nat) = none := by
  obtain ⟨z, h1, h2, _⟩ := C35_isolated_partial pka v (tri 1) (installable_bins (pk := pk) rfl (inst_tri 1)) (plain_a (tri 1)) none_ fresh_ [2, 0, 1] (by unfold Order; decide +kernel)
  have key : ((apply pka v (tri 1) [2, 0, 1] none_).map fun z => (z.1 [], z.1 [storeName], z.1 [binName], z.1 (home v quad 3))) = some (some .dir, some .dir, some .dir, none) := by
    decide +kernel
  rw [h1] at key
  simp only [Option.map_some, Option.some.injEq, Prod.mk.injEq] at key
  refine ⟨z, h1, ?_⟩
  exact (C35_isolated_again_fails pka v (tri 1) quad (installable_bins (pk := pk) rfl (inst_tri 1)) (installable_bins (pk := pk) rfl inst_quad) (plain_a quad)
    ⟨compatible.same, compatible.kept, compatible.inScope, compatible.scopes⟩ ⟨z.1, some []⟩ h2
    ⟨by dsimp only; rw [key.1]; simp, by simp, by dsimp only; rw [key.2.1]; simp⟩ key.2.2.1 [3, 0, 2, 1] (by unfold Order; decide +kernel) 3 _ ['c'] [pj] (by decide) rfl rfl (by decide)
    (by decide) key.2.2.2).2

end Ex

end Iso
end Oro
