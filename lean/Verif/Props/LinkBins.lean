import Verif.Spec.LinkBins
import Verif.Props.Extract
import Mathlib.Data.List.Infix
/-
C35: commands are linked for several packages at a time, step by step. Whatever the order of the steps, if linking comes to its
end the commands are there; with one package at a time it does; with two packages at a time it can fail.
-/

set_option linter.unusedSectionVars false

namespace Oro
namespace Hoisted
variable {P S V I : Type} [DecidableEq V] [DecidableEq I] [DecidableEq S]

section
variable {pk : Pkgs P} {g : Graph Str P S}

/-- the command folder of a package -/
theorem pkg_bin (hg : Installable pk g) {i : Nat} (h0 : i ≠ 0) {nd : Node Str P S} (hi : g.nodes[i]? = some nd) :
    ∃ σ, LocatedAt g i (σ ++ [nd.name]) ∧ nmWord :: binDir (targetDir g i) = folder σ ++ [nmWord, binName] := by
  have hl := (locatedAt_iff hg.tree (ord_of hg)).2 ⟨⟨nd, hi⟩, rfl⟩
  obtain ⟨σ, nd', hi', hπ⟩ := located_snoc hl h0
  rw [hi] at hi'
  cases hi'
  rw [hπ] at hl
  exact ⟨σ, hl, binDir_located hg hl⟩

/-- the folders above a command folder are there -/
theorem bin_way (hg : Installable pk g) {t : Tree} (ht : Installed pk g t) {i : Nat} (h0 : i ≠ 0) {nd : Node Str P S} (hi : g.nodes[i]? = some nd)
    {q : Loc} (hq : q <+: binDir (targetDir g i)) (hne : q ≠ binDir (targetDir g i)) : ¬ InBin q ∧ t q = some .dir := by
  obtain ⟨σ, hl, hb⟩ := pkg_bin hg h0 hi
  have h1 : nmWord :: q <+: folder σ ++ [nmWord] ++ [binName] := by
    have : folder σ ++ [nmWord] ++ [binName] = nmWord :: binDir (targetDir g i) := by rw [hb]; simp
    rw [this]
    exact List.cons_prefix_cons.2 ⟨rfl, hq⟩
  rcases List.prefix_concat_iff.1 h1 with h2 | h2
  · exfalso
    apply hne
    have : nmWord :: q = nmWord :: binDir (targetDir g i) := by rw [h2, hb]; simp
    simpa using this
  · have h3 : nmWord :: q <+: folder (σ ++ [nd.name]) := by
      refine h2.trans ?_
      rw [folder_append, folder_cons]
      exact ⟨nameSegs nd.name ++ folder [], by simp⟩
    exact ⟨not_inBin_way (located_inst hg hl) h3, way_present hg ht h0 hl h3⟩

theorem bin_in (hg : Installable pk g) {i : Nat} (h0 : i ≠ 0) {nd : Node Str P S} (hi : g.nodes[i]? = some nd) (y : Loc) :
    InBin (binDir (targetDir g i) ++ y) := by
  obtain ⟨σ, hl, _⟩ := pkg_bin hg h0 hi
  exact binDir_inBin hg hl y

/-- nothing is inside a command -/
theorem bin_apart (hg : Installable pk g) {i j : Nat} (h0 : i ≠ 0) (j0 : j ≠ 0) {nd nd' : Node Str P S} (hi : g.nodes[i]? = some nd)
    (hj : g.nodes[j]? = some nd') {b : Str} {y : List Str} (h : binDir (targetDir g i) ++ [b] <+: binDir (targetDir g j) ++ y) :
    ∃ y', y = b :: y' ∧ binDir (targetDir g i) = binDir (targetDir g j) := by
  obtain ⟨σ, hl, hb⟩ := pkg_bin hg h0 hi
  obtain ⟨σ', hl', hb'⟩ := pkg_bin hg j0 hj
  obtain ⟨z, hz⟩ := h
  have h1 : folder σ ++ [nmWord, binName] ++ (b :: z) = folder σ' ++ [nmWord, binName] ++ y := by
    rw [← hb, ← hb', List.cons_append, List.cons_append, ← hz]
    simp
  have h2 := folder_eq_of_snoc2 hg hl hl' h1
  rw [h2] at h1
  have h3 : b :: z = y := List.append_cancel_left h1
  have h4 : nmWord :: binDir (targetDir g i) = nmWord :: binDir (targetDir g j) := by rw [hb, hb', h2]
  exact ⟨z, h3.symm, by simpa using h4⟩

/-- `mkdirp` of a command folder -/
theorem writeAt_eq {t t' : Tree} {p : Loc} (h : writeAt t p .dir = some t') : (t p = none ∨ t p = some .dir) ∧
    ∀ q, t' q = if q = p then some .dir else dirsAbove t p q := by
  unfold writeAt at h
  split at h
  · cases h
  · split at h
    · cases h
    · rename_i hc
      cases h
      refine ⟨?_, fun q => rfl⟩
      simp only [true_and, not_and, Decidable.not_not] at hc
      by_cases hx : t p = none
      · exact .inl hx
      · exact .inr (hc hx)

/-- what a step does to the disk: nothing outside of command folders -/
theorem lcmd_keeps (hg : Installable pk g) {t : Tree} (ht : Installed pk g t) {i : Nat} (h0 : i ≠ 0) {nd : Node Str P S} (hi : g.nodes[i]? = some nd)
    {s : Tree} (hs : ∀ p, ¬ InBin p → s p = t p) {b : Str × Loc} {cache : List Loc} {ph : LPhase} {r : Tree × List Loc × Option LPhase}
    (hr : lcmd (targetDir g i) b s cache ph = some r) : ∀ p, ¬ InBin p → r.1 p = t p := by
  intro p hp
  have hB : p ≠ binDir (targetDir g i) := by
    rintro rfl
    exact hp (by simpa using bin_in hg h0 hi [])
  cases ph with
  | start => cases hr; exact hs p hp
  | check => cases hr; exact hs p hp
  | parent => cases hr; exact hs p hp
  | create =>
    simp only [lcmd] at hr
    split at hr
    · cases hr
      dsimp only
      rw [if_neg hB]
      exact hs p hp
    · cases hr
  | createAll =>
    simp only [lcmd] at hr
    obtain ⟨t', h1, h2⟩ := Option.map_eq_some_iff.1 hr
    subst h2
    dsimp only
    rw [(writeAt_eq h1).2, if_neg hB]
    unfold dirsAbove
    split
    · rename_i hc
      simp only [ne_eq, decide_not, Bool.and_eq_true, List.isPrefixOf_iff_prefix] at hc
      rw [(bin_way hg ht h0 hi hc.1.1 hB).2]
    · exact hs p hp
  | insert l =>
    cases l with
    | nil => cases hr; exact hs p hp
    | cons q l => cases hr; exact hs p hp
  | look => cases hr; exact hs p hp
  | remove =>
    simp only [lcmd] at hr
    split at hr
    · cases hr
    · cases hr
      dsimp only
      rw [if_neg]
      · exact hs p hp
      · rw [List.isPrefixOf_iff_prefix]
        rintro ⟨y, rfl⟩
        exact hp (by rw [List.append_assoc]; exact bin_in hg h0 hi _)
  | link =>
    simp only [lcmd] at hr
    split at hr
    · cases hr
      dsimp only
      rw [if_neg]
      · exact hs p hp
      · rintro rfl
        exact hp (bin_in hg h0 hi _)
    · cases hr

/-- what a step does to an entry of a command folder: nothing, unless it is the command that is worked on -/
theorem lcmd_other (hg : Installable pk g) {i j : Nat} (h0 : i ≠ 0) (j0 : j ≠ 0) {nd nd' : Node Str P S} (hi : g.nodes[i]? = some nd)
    (hj : g.nodes[j]? = some nd') {a : Str} {e : Entry} {s : Tree} (hs : s (binDir (targetDir g j) ++ [a]) = some e)
    {b : Str × Loc} {cache : List Loc} {ph : LPhase} {r : Tree × List Loc × Option LPhase}
    (hr : lcmd (targetDir g i) b s cache ph = some r) :
    r.1 (binDir (targetDir g j) ++ [a]) = some e ∨
      (ph = .remove ∧ r.2.2 = some .link ∧ binDir (targetDir g j) ++ [a] = binDir (targetDir g i) ++ [b.1]) ∨
      (ph = .link ∧ r.2.2 = none ∧ binDir (targetDir g j) ++ [a] = binDir (targetDir g i) ++ [b.1] ∧
        r.1 (binDir (targetDir g j) ++ [a]) = some (.link (targetDir g i ++ b.2))) := by
  cases ph with
  | start => cases hr; exact .inl hs
  | check => cases hr; exact .inl hs
  | parent => cases hr; exact .inl hs
  | create =>
    simp only [lcmd] at hr
    split at hr
    · rename_i hc
      cases hr
      left
      dsimp only
      rw [if_neg]
      · exact hs
      · intro h
        rw [h] at hs
        rw [hc.2] at hs
        cases hs
    · cases hr
  | createAll =>
    simp only [lcmd] at hr
    obtain ⟨t', h1, h2⟩ := Option.map_eq_some_iff.1 hr
    subst h2
    left
    dsimp only
    obtain ⟨h3, h4⟩ := writeAt_eq h1
    rw [h4]
    split
    · rename_i hq
      rw [← hq] at h3
      rcases h3 with h3 | h3
      · rw [hs] at h3; cases h3
      · rw [hs] at h3; exact h3.symm
    · unfold dirsAbove
      rw [if_neg]
      · exact hs
      · rw [hs]; simp
  | insert l =>
    cases l with
    | nil => cases hr; exact .inl hs
    | cons q l => cases hr; exact .inl hs
  | look => cases hr; exact .inl hs
  | remove =>
    simp only [lcmd] at hr
    split at hr
    · cases hr
    · cases hr
      by_cases hc : (binDir (targetDir g i) ++ [b.1]) <+: binDir (targetDir g j) ++ [a]
      · obtain ⟨y, h1, h2⟩ := bin_apart hg h0 j0 hi hj hc
        simp only [List.cons.injEq] at h1
        exact .inr (.inl ⟨rfl, rfl, by rw [h1.1, h2]⟩)
      · left
        dsimp only
        rw [isPrefixOf_false hc]
        exact hs
  | link =>
    simp only [lcmd] at hr
    split at hr
    · cases hr
      by_cases hc : binDir (targetDir g j) ++ [a] = binDir (targetDir g i) ++ [b.1]
      · refine .inr (.inr ⟨rfl, rfl, hc, ?_⟩)
        dsimp only
        rw [if_pos hc]
      · left
        dsimp only
        rw [if_neg hc]
        exact hs
    · cases hr

/-- a command that is about to be linked again -/
def Relinking (g : Graph Str P S) (p : Loc) (tasks : List LTask) : Prop :=
  ∃ k ∈ tasks, ∃ c rest, k.todo = c :: rest ∧ k.phase = .link ∧ binDir (targetDir g k.pkg) ++ [c.1] = p

/-- one of the packages that declare it is linked at `p` -/
def LinkedAt (pk : Pkgs P) (g : Graph Str P S) (order : List Nat) (p : Loc) (t : Tree) : Prop :=
  ∃ i nd b x, i ∈ order ∧ i ≠ 0 ∧ g.nodes[i]? = some nd ∧ (b, x) ∈ pk.bins nd.pkg ∧ p = binDir (targetDir g i) ++ [b] ∧
    t p = some (.link (targetDir g i ++ x))

/-- what is true at any time -/
structure LInv (pk : Pkgs P) (g : Graph Str P S) (order : List Nat) (t : Tree) (x : LRun) : Prop where
  keeps : ∀ p, ¬ InBin p → x.tree p = t p
  task : ∀ k ∈ x.tasks, k.pkg ≠ 0 ∧ k.pkg ∈ order ∧ ∃ nd, g.nodes[k.pkg]? = some nd ∧ ∀ c ∈ k.todo, c ∈ pk.bins nd.pkg
  prog : ∀ i ∈ order, ∀ nd b f, i ≠ 0 → g.nodes[i]? = some nd → (b, f) ∈ pk.bins nd.pkg → t (targetDir g i ++ f) ≠ none →
    ¬ InBin (targetDir g i ++ f) →
    i ∈ x.queue ∨ (∃ k ∈ x.tasks, k.pkg = i ∧ (b, f) ∈ k.todo) ∨ LinkedAt pk g order (binDir (targetDir g i) ++ [b]) x.tree ∨
      Relinking g (binDir (targetDir g i) ++ [b]) x.tasks
  queue : ∀ i ∈ x.queue, i ∈ order

theorem linv_init (order : List Nat) (t : Tree) : LInv pk g order t (linit order t) where
  keeps := by
    intro p hp
    simp only [linit]
    rw [if_neg]
    intro h
    exact hp (cleared_inBin h)
  task := by intro k hk; cases hk
  prog := fun i hi _ _ _ _ _ _ _ _ => .inl hi
  queue := fun i hi => hi

theorem mem_eraseIdx_or {α : Type} {l : List α} {k : Nat} {a b : α} (hk : l[k]? = some a) (hb : b ∈ l) : b = a ∨ b ∈ l.eraseIdx k := by
  obtain ⟨hlt, e⟩ := List.getElem?_eq_some_iff.1 hk
  have := (cons_eraseIdx_perm hlt).symm.subset hb
  rw [e] at this
  exact List.mem_cons.1 this

theorem mem_set_or {α : Type} {l : List α} {k : Nat} {a b : α} (c : α) (hk : l[k]? = some a) (hb : b ∈ l) : b = a ∨ b ∈ l.set k c := by
  obtain ⟨j, hj, e⟩ := List.mem_iff_getElem.1 hb
  obtain ⟨hlt, ek⟩ := List.getElem?_eq_some_iff.1 hk
  by_cases h : j = k
  · subst h
    left
    rw [← e, ek]
  · right
    refine List.mem_iff_getElem.2 ⟨j, by simpa using hj, ?_⟩
    rw [List.getElem_set_ne (fun h' => h h'.symm)]
    exact e

theorem set_mem {α : Type} {l : List α} {k : Nat} {a : α} (c : α) (hk : l[k]? = some a) : c ∈ l.set k c := by
  obtain ⟨hlt, _⟩ := List.getElem?_eq_some_iff.1 hk
  exact List.mem_set hlt c

theorem linv_step (hg : Installable pk g) {cap : Nat} {order : List Nat} {t : Tree} (ht : Installed pk g t) {x y : LRun}
    (h : LInv pk g order t x) {ev : XEvent} (hs : lstep pk cap g x ev = some (some y)) : LInv pk g order t y := by
  cases ev with
  | start =>
    simp only [lstep] at hs
    split at hs
    · cases hq : x.queue with
      | nil => rw [hq] at hs; cases hs
      | cons i rest =>
        rw [hq] at hs
        have hio : i ∈ order := h.queue i (by rw [hq]; simp)
        have hqr : ∀ j ∈ rest, j ∈ order := fun j hj => h.queue j (by rw [hq]; simp [hj])
        dsimp only at hs
        split at hs
        · rename_i h0
          cases hs
          refine ⟨h.keeps, h.task, ?_, hqr⟩
          intro j hj nd b f j0 hn hb hf hnb
          rcases h.prog j hj nd b f j0 hn hb hf hnb with h1 | h1
          · rw [hq] at h1
            rcases List.mem_cons.1 h1 with h2 | h2
            · exact absurd (h2.trans h0) j0
            · exact .inl h2
          · exact .inr h1
        · rename_i h0
          cases hn : g.nodes[i]? with
          | none =>
            rw [hn] at hs
            cases hs
            refine ⟨h.keeps, h.task, ?_, hqr⟩
            intro j hj nd b f j0 hjn hb hf hnb
            rcases h.prog j hj nd b f j0 hjn hb hf hnb with h1 | h1
            · rw [hq] at h1
              rcases List.mem_cons.1 h1 with h2 | h2
              · rw [h2, hn] at hjn; cases hjn
              · exact .inl h2
            · exact .inr h1
          | some nd =>
            rw [hn] at hs
            cases hs
            refine ⟨h.keeps, ?_, ?_, hqr⟩
            · intro k hk
              rcases List.mem_append.1 hk with hk | hk
              · exact h.task k hk
              · simp only [List.mem_singleton] at hk
                subst hk
                exact ⟨h0, hio, nd, hn, fun c hc => hc⟩
            · intro j hj nd' b f j0 hjn hb hf hnb
              rcases h.prog j hj nd' b f j0 hjn hb hf hnb with h1 | ⟨k, hk, h1⟩ | h1 | ⟨k, hk, h1⟩
              · rw [hq] at h1
                rcases List.mem_cons.1 h1 with h2 | h2
                · subst h2
                  rw [hn] at hjn
                  cases hjn
                  exact .inr (.inl ⟨_, List.mem_append_right _ (List.mem_singleton.2 rfl), rfl, hb⟩)
                · exact .inl h2
              · exact .inr (.inl ⟨k, List.mem_append_left _ hk, h1⟩)
              · exact .inr (.inr (.inl h1))
              · exact .inr (.inr (.inr ⟨k, List.mem_append_left _ hk, h1⟩))
    · cases hs
  | work k =>
    simp only [lstep] at hs
    split at hs
    · cases hs
    · rename_i i ph hk
      cases hs
      refine ⟨h.keeps, fun k' hk' => h.task k' ((List.eraseIdx_subset) hk'), ?_, h.queue⟩
      intro j hj nd b f j0 hjn hb hf hnb
      rcases h.prog j hj nd b f j0 hjn hb hf hnb with h1 | ⟨k', hk', h1⟩ | h1 | ⟨k', hk', c, rest, h1⟩
      · exact .inl h1
      · rcases mem_eraseIdx_or hk hk' with h2 | h2
        · subst h2; exact absurd h1.2 (by simp)
        · exact .inr (.inl ⟨k', h2, h1⟩)
      · exact .inr (.inr (.inl h1))
      · rcases mem_eraseIdx_or hk hk' with h2 | h2
        · subst h2; exact absurd h1.1 (by simp)
        · exact .inr (.inr (.inr ⟨k', h2, c, rest, h1⟩))
    · rename_i i b rest ph hk
      simp only [Option.some.injEq] at hs
      obtain ⟨r, hr, e⟩ := Option.map_eq_some_iff.1 hs
      have hm : (⟨i, b :: rest, ph⟩ : LTask) ∈ x.tasks := List.mem_of_getElem? hk
      obtain ⟨i0, hio, ndi, hin, hib⟩ := h.task _ hm
      dsimp only at i0 hio hin hib
      have hbm := hib b (by simp)
      -- the task afterwards
      obtain ⟨k', hk', hset⟩ : ∃ k' : LTask, k' = (match r.2.2 with | some ph' => ⟨i, b :: rest, ph'⟩ | none => ⟨i, rest, .start⟩) ∧
          y = { x with tree := r.1, cache := r.2.1, tasks := x.tasks.set k k' } := ⟨_, rfl, e.symm⟩
      have hk'p : k'.pkg = i ∧ ∀ c ∈ k'.todo, c ∈ b :: rest := by
        rw [hk']
        split
        · exact ⟨rfl, fun c hc => hc⟩
        · exact ⟨rfl, fun c hc => by simp only at hc; simp [hc]⟩
      subst hset
      refine ⟨lcmd_keeps hg ht i0 hin h.keeps hr, ?_, ?_, h.queue⟩
      · intro q hq
        rcases List.mem_or_eq_of_mem_set hq with hq | hq
        · exact h.task q hq
        · subst hq
          exact ⟨by rw [hk'p.1]; exact i0, by rw [hk'p.1]; exact hio, ndi, by rw [hk'p.1]; exact hin, fun c hc => hib c (hk'p.2 c hc)⟩
      · -- a link that is made
        have hself : ph = .link → r.2.2 = none ∧ r.1 (binDir (targetDir g i) ++ [b.1]) = some (.link (targetDir g i ++ b.2)) := by
          rintro rfl
          simp only [lcmd] at hr
          split at hr
          · cases hr
            exact ⟨rfl, by simp⟩
          · cases hr
        intro j hj nd a f j0 hjn hb hf hnb
        dsimp only
        rcases h.prog j hj nd a f j0 hjn hb hf hnb with h1 | ⟨k2, hk2, h1, h2⟩ | h1 | ⟨k2, hk2, c, rest', h1, h2, h3⟩
        · exact .inl h1
        · rcases mem_set_or k' hk hk2 with h3 | h3
          · subst h3
            dsimp only at h1 h2
            subst h1
            cases hnx : r.2.2 with
            | some ph' =>
              rw [hnx] at hk'
              refine .inr (.inl ⟨k', set_mem k' hk, hk'p.1, ?_⟩)
              rw [hk']
              exact h2
            | none =>
              rw [hnx] at hk'
              dsimp only at hk'
              rcases List.mem_cons.1 h2 with h4 | h4
              · -- it is done
                subst h4
                cases ph with
                | start =>
                  cases hr
                  dsimp only at hnx
                  split at hnx
                  · rename_i hx
                    rw [h.keeps _ hnb] at hx
                    exact absurd hx hf
                  · cases hnx
                | check => cases hr; dsimp only at hnx; split at hnx <;> cases hnx
                | parent => cases hr; dsimp only at hnx; split at hnx <;> cases hnx
                | create =>
                  simp only [lcmd] at hr
                  split at hr <;> cases hr
                  cases hnx
                | createAll =>
                  simp only [lcmd] at hr
                  obtain ⟨t', _, h6⟩ := Option.map_eq_some_iff.1 hr
                  subst h6
                  cases hnx
                | insert l => cases l <;> cases hr <;> cases hnx
                | look => cases hr; dsimp only at hnx; split at hnx <;> cases hnx
                | remove =>
                  simp only [lcmd] at hr
                  split at hr <;> cases hr
                  cases hnx
                | link =>
                  exact .inr (.inr (.inl ⟨i, ndi, a, f, hj, j0, hin, hbm, rfl, (hself rfl).2⟩))
              · refine .inr (.inl ⟨k', set_mem k' hk, hk'p.1, ?_⟩)
                rw [hk']
                exact h4
          · exact .inr (.inl ⟨k2, h3, h1, h2⟩)
        · obtain ⟨l, ndl, c, z, hlo, l0, hln, hlb, hp, hx⟩ := h1
          rw [hp] at hx ⊢
          rcases lcmd_other hg i0 l0 hin hln hx hr with h4 | ⟨h4, h5, h6⟩ | ⟨h4, h5, h6, h7⟩
          · exact .inr (.inr (.inl ⟨l, ndl, c, z, hlo, l0, hln, hlb, rfl, h4⟩))
          · right; right; right
            rw [h5] at hk'
            refine ⟨k', set_mem k' hk, b, rest, ?_, ?_, ?_⟩
            · rw [hk']
            · rw [hk']
            · rw [hk'p.1, h6]
          · right; right; left
            rw [h6] at h7 ⊢
            exact ⟨i, ndi, b.1, b.2, hio, i0, hin, hbm, rfl, h7⟩
        · rcases mem_set_or k' hk hk2 with h4 | h4
          · subst h4
            dsimp only at h1 h2 h3
            simp only [List.cons.injEq] at h1
            rw [← h1.1] at h3
            rw [← h3]
            exact .inr (.inr (.inl ⟨i, ndi, b.1, b.2, hio, i0, hin, hbm, rfl, (hself h2).2⟩))
          · exact .inr (.inr (.inr ⟨k2, h4, c, rest', h1, h2, h3⟩))

theorem linv (hg : Installable pk g) {cap : Nat} {order : List Nat} {t : Tree} (ht : Installed pk g t) {x : LRun}
    (h : LReach pk cap g order t x) : LInv pk g order t x := by
  induction h with
  | init => exact linv_init order t
  | step ev _ hs ih => exact linv_step hg ht ih hs

/-- at the end, all commands are linked -/
theorem linv_done (hg : Installable pk g) {order : List Nat} {t : Tree} (ht : Installed pk g t) {x : LRun}
    (h : LInv pk g order t x) (hd : x.done = true) {i : Nat} (hio : i ∈ order) (h0 : i ≠ 0) {nd : Node Str P S} (hi : g.nodes[i]? = some nd)
    {σ : List Str} {n b : Str} {f : Loc} (hl : LocatedAt g i (σ ++ [n])) (hb : (b, f) ∈ pk.bins nd.pkg) (hf : nmWord ∉ f)
    (hc : pk.content nd.pkg f ≠ none) : CommandLinked pk g σ b x.tree := by
  have htf := target_folder hg.tree (ord_of hg) h0 hl
  have hnb := command_not_inBin hg h0 hl hf
  have hfile : t (targetDir g i ++ f) ≠ none := by
    cases hcx : pk.content nd.pkg f with
    | none => exact absurd hcx hc
    | some e =>
      rw [(ht _ hnb e).2 (.inl ⟨i, nd, _, f, h0, hi, hl, by rw [← List.cons_append, htf], hcx⟩)]
      simp
  simp only [LRun.done, Bool.and_eq_true, List.isEmpty_iff] at hd
  rcases h.prog i hio nd b f h0 hi hb hfile hnb with h1 | ⟨k, hk, _⟩ | h1 | ⟨k, hk, _⟩
  · rw [hd.1] at h1; cases h1
  · rw [hd.2] at hk; cases hk
  · obtain ⟨j, ndj, c, z, hjo, j0, hjn, hjb, hp, hx⟩ := h1
    obtain ⟨σ', hl', hb'⟩ := pkg_bin hg j0 hjn
    have hbl := binDir_located hg hl
    have h2 : folder σ ++ [nmWord, binName] ++ [b] = folder σ' ++ [nmWord, binName] ++ [c] := by
      rw [← hbl, ← hb', List.cons_append, List.cons_append, hp]
    have h3 := folder_eq_of_snoc2 hg hl hl' h2
    rw [h3] at h2
    have h4 : b = c := by simpa using h2
    have h5 : σ = σ' := (folder_inj (x := []) (y := []) (fun m hm => located_names hg hl m (by simp [hm]))
          (fun m hm => located_names hg hl' m (by simp [hm])) (by simpa using h3) (by simp) (by simp)).1
    subst h4 h5
    refine ⟨j, ndj, ndj.name, z, _, _, hjn, hl', hjb, ?_, ?_, hx⟩
    · rw [← List.cons_append, hbl]; simp
    · rw [← List.cons_append, target_folder hg.tree (ord_of hg) j0 hl']
  · rw [hd.2] at hk; cases hk

/-! ### one package at a time -/

/-- what is known about the command that is worked on -/
def PhaseOk (target : Loc) (c : Str × Loc) (t : Tree) (cache : List Loc) : LPhase → Prop
  | .start => True
  | .check => True
  | .parent => binDir target ∉ cache
  | .create => binDir target ∉ cache ∧ (binDir target).dropLast ∈ cache
  | .createAll => binDir target ∉ cache
  | .insert l => (∀ q ∈ l, t q = some .dir ∧ q <+: binDir target) ∧ (binDir target ∈ l ∨ binDir target ∈ cache)
  | .look => binDir target ∈ cache
  | .remove => binDir target ∈ cache ∧ t (binDir target ++ [c.1]) ≠ none
  | .link => binDir target ∈ cache ∧ t (binDir target ++ [c.1]) = none

/-- the folders that are known exist, and lead to command folders -/
def HonestCache (g : Graph Str P S) (t : Tree) (cache : List Loc) : Prop :=
  ∀ q ∈ cache, t q = some .dir ∧ (q = [] ∨ ∃ j nd, j ≠ 0 ∧ g.nodes[j]? = some nd ∧ q <+: binDir (targetDir g j))

/-- the command folders that exist are known, or about to be -/
def KnownBins (g : Graph Str P S) (t : Tree) (cache : List Loc) (l : List Loc) : Prop :=
  ∀ j nd, j ≠ 0 → g.nodes[j]? = some nd → t (binDir (targetDir g j)) ≠ none → binDir (targetDir g j) ∈ cache ∨ binDir (targetDir g j) ∈ l

/-- the folders a task is about to record -/
def LPhase.inserts : LPhase → List Loc
  | .insert l => l
  | _ => []

theorem nil_ne_bin (target : Loc) : binDir target ≠ [] := by unfold binDir; split <;> simp

/-- alone, the work on a command never fails -/
theorem lcmd_alone (hg : Installable pk g) {t : Tree} (ht : Installed pk g t) {i : Nat} (h0 : i ≠ 0) {nd : Node Str P S} (hi : g.nodes[i]? = some nd)
    {s : Tree} (hs : ∀ p, ¬ InBin p → s p = t p) {c : Str × Loc} {cache : List Loc} {ph : LPhase} (hh : HonestCache g s cache)
    (hk : KnownBins g s cache ph.inserts) (hp : PhaseOk (targetDir g i) c s cache ph) :
    ∃ r, lcmd (targetDir g i) c s cache ph = some r ∧ HonestCache g r.1 r.2.1 ∧
      match r.2.2 with
      | some ph' => KnownBins g r.1 r.2.1 ph'.inserts ∧ PhaseOk (targetDir g i) c r.1 r.2.1 ph'
      | none => KnownBins g r.1 r.2.1 [] := by
  have hunknown : binDir (targetDir g i) ∉ cache → ph.inserts = [] → s (binDir (targetDir g i)) = none := by
    intro h1 h2
    by_cases hx : s (binDir (targetDir g i)) = none
    · exact hx
    · rcases hk i nd h0 hi hx with h | h
      · exact absurd h h1
      · rw [h2] at h; cases h
  -- a command is not on the way to a command folder
  have hto : ∀ (q : Loc) (j : Nat) (ndj : Node Str P S), j ≠ 0 → g.nodes[j]? = some ndj → q <+: binDir (targetDir g j) →
      ¬ (binDir (targetDir g i) ++ [c.1]) <+: q := by
    intro q j ndj j0 hj hq hx
    obtain ⟨y, h1, _⟩ := bin_apart hg h0 j0 hi hj (b := c.1) (y := []) (by simpa using hx.trans hq)
    cases h1
  cases ph with
  | start =>
    refine ⟨_, rfl, hh, ?_⟩
    dsimp only
    split
    · rename_i ph' he
      split at he
      · cases he
      · cases he; exact ⟨hk, trivial⟩
    · exact hk
  | check =>
    refine ⟨_, rfl, hh, ?_⟩
    dsimp only
    by_cases hb : binDir (targetDir g i) ∈ cache
    · rw [if_pos hb]; exact ⟨hk, hb⟩
    · rw [if_neg hb]; exact ⟨hk, hb⟩
  | parent =>
    refine ⟨_, rfl, hh, ?_⟩
    dsimp only
    by_cases hb : (binDir (targetDir g i)).dropLast ∈ cache
    · rw [if_pos hb]; exact ⟨hk, hp, hb⟩
    · rw [if_neg hb]; exact ⟨hk, hp⟩
  | create =>
    have hn := hunknown hp.1 rfl
    refine ⟨(_, cache, some (.insert [binDir (targetDir g i)])), by simp only [lcmd]; rw [if_pos ⟨(hh _ hp.2).1, hn⟩], ?_, ?_, ?_⟩
    · intro q hq
      obtain ⟨h1, h2⟩ := hh q hq
      refine ⟨?_, h2⟩
      dsimp only
      split
      · rfl
      · exact h1
    · intro j ndj j0 hj hx
      dsimp only at hx
      split at hx
      · rename_i he
        right
        simp only [LPhase.inserts, List.mem_singleton]
        exact he
      · rcases hk j ndj j0 hj hx with h | h
        · exact .inl h
        · cases h
    · refine ⟨fun q hq => ?_, .inl (by simp)⟩
      simp only [List.mem_singleton] at hq
      subst hq
      exact ⟨by simp, List.prefix_rfl⟩
  | createAll =>
    have hn := hunknown hp rfl
    have hway : ∀ q, q <+: binDir (targetDir g i) → q ≠ binDir (targetDir g i) → s q = some .dir := by
      intro q h1 h2
      obtain ⟨h3, h4⟩ := bin_way hg ht h0 hi h1 h2
      rw [hs q h3, h4]
    have hnb : blocked s (binDir (targetDir g i)) = false := by
      unfold blocked
      rw [List.any_eq_false]
      intro j hj
      rw [List.mem_range] at hj
      rw [hway (List.take j _) (List.take_prefix _ _) (by intro h; have := congrArg List.length h; simp at this; omega)]
      simp
    have hw : writeAt s (binDir (targetDir g i)) .dir = some fun q => if q = binDir (targetDir g i) then some .dir else dirsAbove s (binDir (targetDir g i)) q := by
      unfold writeAt
      rw [hnb, hn]
      simp
    have hval : ∀ q, q ≠ binDir (targetDir g i) → dirsAbove s (binDir (targetDir g i)) q = s q := by
      intro q hq
      unfold dirsAbove
      split
      · rename_i hc
        simp only [ne_eq, decide_not, Bool.and_eq_true, List.isPrefixOf_iff_prefix] at hc
        rw [hway q hc.1.1 hq]
      · rfl
    refine ⟨(_, cache, some (.insert (binDir (targetDir g i)).inits.reverse)), by simp only [lcmd]; rw [hw]; rfl, ?_, ?_, ?_⟩
    · intro q hq
      obtain ⟨h1, h2⟩ := hh q hq
      refine ⟨?_, h2⟩
      dsimp only
      split
      · rfl
      · rename_i hne
        rw [hval q hne]
        exact h1
    · intro j ndj j0 hj hx
      dsimp only at hx
      split at hx
      · rename_i he
        right
        simp only [LPhase.inserts, List.mem_reverse, List.mem_inits]
        rw [he]
      · rename_i hne
        rw [hval _ hne] at hx
        rcases hk j ndj j0 hj hx with h | h
        · exact .inl h
        · cases h
    · refine ⟨fun q hq => ?_, .inl (by simp)⟩
      simp only [List.mem_reverse, List.mem_inits] at hq
      refine ⟨?_, hq⟩
      dsimp only
      split
      · rfl
      · rename_i hne
        rw [hval q hne]
        exact hway q hq hne
  | insert l =>
    cases l with
    | nil =>
      refine ⟨_, rfl, hh, hk, ?_⟩
      rcases hp.2 with h | h
      · cases h
      · exact h
    | cons q l =>
      refine ⟨_, rfl, ?_, ?_, ?_⟩
      · intro q' hq'
        rcases List.mem_cons.1 hq' with h | h
        · subst h
          obtain ⟨h1, h2⟩ := hp.1 q' (by simp)
          exact ⟨h1, .inr ⟨i, nd, h0, hi, h2⟩⟩
        · exact hh q' h
      · intro j ndj j0 hj hx
        rcases hk j ndj j0 hj hx with h | h
        · exact .inl (List.mem_cons_of_mem _ h)
        · rcases List.mem_cons.1 h with h | h
          · exact .inl (by dsimp only; rw [h]; simp)
          · exact .inr h
      · refine ⟨fun q' hq' => hp.1 q' (by simp [hq']), ?_⟩
        rcases hp.2 with h | h
        · rcases List.mem_cons.1 h with h | h
          · exact .inr (by dsimp only; rw [h]; simp)
          · exact .inl h
        · exact .inr (List.mem_cons_of_mem _ h)
  | look =>
    refine ⟨_, rfl, hh, ?_⟩
    dsimp only
    by_cases hb : s (binDir (targetDir g i) ++ [c.1]) = none
    · rw [if_pos hb]; exact ⟨hk, hp, hb⟩
    · rw [if_neg hb]; exact ⟨hk, hp, hb⟩
  | remove =>
    refine ⟨(_, cache, some .link), by simp only [lcmd]; rw [if_neg hp.2], ?_, ?_, hp.1, ?_⟩
    · intro q hq
      obtain ⟨h1, h2⟩ := hh q hq
      refine ⟨?_, h2⟩
      dsimp only
      rw [if_neg]
      · exact h1
      · rw [List.isPrefixOf_iff_prefix]
        intro hx
        rcases h2 with rfl | ⟨j, ndj, j0, hj, hq'⟩
        · have := List.prefix_nil.1 hx
          simp at this
        · exact hto q j ndj j0 hj hq' hx
    · intro j ndj j0 hj hx
      dsimp only at hx
      split at hx
      · exact absurd rfl hx
      · rcases hk j ndj j0 hj hx with h | h
        · exact .inl h
        · cases h
    · simp
  | link =>
    refine ⟨_, by simp only [lcmd]; rw [if_pos ⟨(hh _ hp.1).1, hp.2⟩], ?_, ?_⟩
    · intro q hq
      obtain ⟨h1, h2⟩ := hh q hq
      refine ⟨?_, h2⟩
      dsimp only
      rw [if_neg]
      · exact h1
      · intro he
        rw [he, hp.2] at h1
        cases h1
    · intro j ndj j0 hj hx
      dsimp only at hx
      rw [if_neg (fun he => hto _ j ndj j0 hj List.prefix_rfl (by rw [← he]))] at hx
      rcases hk j ndj j0 hj hx with h | h
      · exact .inl h
      · cases h

/-- what is true at any time when there is one package at a time -/
structure LAlone (g : Graph Str P S) (x : LRun) : Prop where
  honest : HonestCache g x.tree x.cache
  state : (x.tasks = [] ∧ KnownBins g x.tree x.cache []) ∨ ∃ k, x.tasks = [k] ∧
    ((k.todo = [] ∧ KnownBins g x.tree x.cache []) ∨
      ∃ c rest, k.todo = c :: rest ∧ KnownBins g x.tree x.cache k.phase.inserts ∧ PhaseOk (targetDir g k.pkg) c x.tree x.cache k.phase)

theorem lalone_start {x : LRun} {i : Nat} {l : List (Str × Loc)} (hk : KnownBins g x.tree x.cache []) :
    (l = [] ∧ KnownBins g x.tree x.cache []) ∨
      ∃ c rest, l = c :: rest ∧ KnownBins g x.tree x.cache LPhase.start.inserts ∧ PhaseOk (targetDir g i) c x.tree x.cache .start := by
  cases l with
  | nil => exact .inl ⟨rfl, hk⟩
  | cons c rest => exact .inr ⟨c, rest, rfl, hk, trivial⟩

theorem lalone_step (hg : Installable pk g) {order : List Nat} {t : Tree} (ht : Installed pk g t) {x : LRun}
    (h : LInv pk g order t x) (ha : LAlone g x) {ev : XEvent} {o : Option LRun} (hs : lstep pk 1 g x ev = some o) : ∃ y, o = some y ∧ LAlone g y := by
  cases ev with
  | start =>
    simp only [lstep] at hs
    split at hs
    · rename_i hc
      have ht0 : x.tasks = [] := by
        rcases hc with hc | hc
        · cases hc
        · exact List.length_eq_zero_iff.1 (by omega)
      have hkb : KnownBins g x.tree x.cache [] := by
        rcases ha.state with ⟨_, h1⟩ | ⟨k, h1, _⟩
        · exact h1
        · rw [ht0] at h1; cases h1
      split at hs
      · cases hs
      · rename_i i rest hq
        split at hs
        · cases hs
          exact ⟨_, rfl, ha.honest, .inl ⟨ht0, hkb⟩⟩
        · split at hs
          · cases hs
            exact ⟨_, rfl, ha.honest, .inl ⟨ht0, hkb⟩⟩
          · rename_i nd hn
            cases hs
            refine ⟨_, rfl, ha.honest, .inr ⟨_, by rw [ht0]; rfl, ?_⟩⟩
            exact lalone_start (x := x) hkb
    · cases hs
  | work k =>
    simp only [lstep] at hs
    split at hs
    · cases hs
    · rename_i i ph hk
      cases hs
      refine ⟨_, rfl, ha.honest, .inl ?_⟩
      rcases ha.state with ⟨h1, h2⟩ | ⟨k', h1, h2⟩
      · rw [h1] at hk; cases hk
      · rw [h1] at hk
        cases k with
        | zero =>
          cases hk
          refine ⟨by rw [h1]; rfl, ?_⟩
          rcases h2 with ⟨_, h2⟩ | ⟨_, _, h2, _⟩
          · exact h2
          · cases h2
        | succ k => cases hk
    · rename_i i b rest ph hk
      rcases ha.state with ⟨h1, h2⟩ | ⟨k', h1, h2⟩
      · rw [h1] at hk; cases hk
      · rw [h1] at hk
        cases k with
        | succ k => cases hk
        | zero =>
          cases hk
          rcases h2 with ⟨h2, _⟩ | ⟨c, rest', h2, h3, h4⟩
          · cases h2
          · dsimp only at h2 h3 h4
            cases h2
            obtain ⟨i0, _, nd, hn, _⟩ := h.task _ (by rw [h1]; exact List.mem_singleton.2 rfl)
            obtain ⟨r, hr, hh, hnx⟩ := lcmd_alone hg ht i0 hn h.keeps ha.honest h3 h4
            dsimp only at hr
            rw [hr] at hs
            simp only [Option.map_some, Option.some.injEq] at hs
            refine ⟨_, hs.symm, hh, .inr ⟨_, by rw [h1]; rfl, ?_⟩⟩
            dsimp only
            cases hz : r.2.2 with
            | none =>
              rw [hz] at hnx
              exact lalone_start (x := ⟨r.1, r.2.1, [], []⟩) hnx
            | some ph' =>
              rw [hz] at hnx
              exact .inr ⟨b, rest, rfl, hnx.1, hnx.2⟩

theorem lalone (hg : Installable pk g) {order : List Nat} {t : Tree} (ht : Installed pk g t)
    (hn : ∀ j nd, j ≠ 0 → g.nodes[j]? = some nd → t (binDir (targetDir g j)) = none) {x : LRun}
    (h : LReach pk 1 g order t x) : LInv pk g order t x ∧ LAlone g x := by
  induction h with
  | init =>
    refine ⟨linv_init order t, ?_, .inl ⟨rfl, ?_⟩⟩
    · intro q hq
      simp only [linit, List.mem_singleton] at hq
      subst hq
      refine ⟨?_, .inl rfl⟩
      simp only [linit, cleared]
      exact (ht [] not_inBin_nil .dir).2 (.inr ⟨rfl, .inl rfl⟩)
    · intro j nd j0 hj hx
      exfalso
      apply hx
      simp only [linit]
      rw [hn j nd j0 hj]
      simp
  | step ev _ hs ih =>
    obtain ⟨y, e, hy⟩ := lalone_step hg ht ih.1 ih.2 hs
    cases e
    exact ⟨linv_step hg ht ih.1 hs, hy⟩

/-- after a first install there are no command folders yet -/
theorem no_bins_yet (hg : Installable pk g) {y : Ext} (ha : At pk g InstName wiped g.nodes.length y) {j : Nat} {nd : Node Str P S} (j0 : j ≠ 0)
    (hj : g.nodes[j]? = some nd) : y.tree (binDir (targetDir g j)) = none := by
  obtain ⟨σ, hl, hb⟩ := pkg_bin hg j0 hj
  cases hx : y.tree (binDir (targetDir g j)) with
  | none => rfl
  | some e =>
    exfalso
    have hin : InBin (binDir (targetDir g j)) := by simpa using bin_in hg j0 hj []
    rcases (ha.tree _ e).1 hx with hT | ⟨i, _, ⟨i0, _⟩, ⟨nd', π, r, hi, hl', hp, hc⟩ | ⟨_, _, π, hl', hp⟩⟩
    · unfold wiped at hT
      rw [if_neg (nil_ne_bin _)] at hT
      cases hT
    · rw [hb] at hp
      have hhead := content_head hg i0 hi hc
      -- the command folder is not in a package
      rcases List.append_eq_append_iff.1 hp with ⟨a, h1, h2⟩ | ⟨a, h1, h2⟩
      · -- the package's folder ends in the command folder
        cases a with
        | nil =>
          rw [List.nil_append] at h2
          rw [← h2] at hhead
          simp at hhead
        | cons z a =>
          simp only [List.cons_append, List.cons.injEq] at h2
          obtain ⟨rfl, h2⟩ := h2
          cases a with
          | nil =>
            rw [List.nil_append] at h2
            -- a folder called node_modules is no package
            have h3 : folder π ++ [binName] = folder σ ++ [nmWord, binName] := by rw [h1]; simp
            have h4 : ∀ m ∈ σ, FolderName m := fun m hm => located_names hg hl m (by simp [hm])
            obtain ⟨τ, hτ, hy⟩ := folder_prefix (y := [nmWord]) h4 (located_names hg hl') h1.symm
            cases τ with
            | nil => simp [folder] at hy
            | cons m τ =>
              rw [folder_cons] at hy
              have := segs_ne_nil (located_names hg hl' m (by rw [hτ]; simp))
              simp only [List.cons.injEq, true_and] at hy
              exact this (List.append_eq_nil_iff.1 hy.symm).1
          | cons z a =>
            simp only [List.cons_append, List.cons.injEq] at h2
            obtain ⟨rfl, h2⟩ := h2
            exact not_bad_folder (located_inst hg hl') ⟨folder σ, a, h1⟩
      · -- the command folder is below another package
        obtain ⟨τ, hτ, hy⟩ := folder_prefix (y := a) (located_names hg hl') (fun m hm => located_names hg hl m (by simp [hm])) h1.symm
        rw [h2] at hhead
        cases τ with
        | nil => rw [hy] at hhead; simp [folder] at hhead
        | cons m τ => rw [hy, folder_cons] at hhead; simp at hhead
    · exact not_inBin_way (located_inst hg hl') hp hin

/-- something can always happen, until everything is done -/
theorem lprogress {cap : Nat} {x : LRun} (hd : x.done = false) : ∃ ev o, lstep pk cap g x ev = some o := by
  cases ht : x.tasks with
  | nil =>
    cases hq : x.queue with
    | nil => simp [LRun.done, ht, hq] at hd
    | cons i rest =>
      refine ⟨.start, ?_⟩
      simp only [lstep, ht, hq, List.length_nil]
      rw [if_pos (by omega)]
      split
      · exact ⟨_, rfl⟩
      · split
        · exact ⟨_, rfl⟩
        · exact ⟨_, rfl⟩
  | cons k l =>
    refine ⟨.work 0, ?_⟩
    obtain ⟨i, todo, ph⟩ := k
    have hk : x.tasks[0]? = some ⟨i, todo, ph⟩ := by rw [ht]; rfl
    cases todo with
    | nil => simp only [lstep, hk]; exact ⟨_, rfl⟩
    | cons b rest => simp only [lstep, hk]; exact ⟨_, rfl⟩

end

section
variable (pk : Pkgs P) (v : LockView P S V I) (cap : Nat) (g : Graph Str P S)

/-- C35 after a first install, with any number of packages at a time and any order of their steps: when linking comes to its end, each
command declared by an installed package (and whose file exists) is linked, and the packages are untouched. -/
theorem C35_concurrent_partial (hg : Installable pk g) (d : Disk V I) (hd : Fresh d) (r : Disk V I × Ext) (hr : install pk v g d = some r)
    (order : List Nat) (ho : order.Perm r.2.pending) (x : LRun) (h : LReach pk cap g order r.1.tree x) :
    Installed pk g x.tree ∧ (x.done = true → ∀ (i : Nat) (nd : Node Str P S) (σ : List Str) (n b : Str) (f : Loc), g.nodes[i]? = some nd →
      LocatedAt g i (σ ++ [n]) → (b, f) ∈ pk.bins nd.pkg → nmWord ∉ f → pk.content nd.pkg f ≠ none → CommandLinked pk g σ b x.tree) := by
  obtain ⟨l, y, hl', e1, e2, e3⟩ := fresh_install (v := v) hg hd
  rw [e1] at hr
  cases hr
  have hinv := linv hg e3 h
  refine ⟨fun p hp e => ?_, ?_⟩
  · rw [hinv.keeps p hp]; exact e3 p hp e
  · intro hdone i nd σ n b f hi hl hb hf hc
    have h0 : i ≠ 0 := by cases σ <;> exact root_not_cons hg hl
    obtain ⟨m, ρ, hm, hin⟩ := located_cons hg h0 hi
    have hmem : i ∈ order := ho.symm.subset ((e2.pending i).2
      ⟨(List.getElem?_eq_some_iff.1 hi).1, ⟨h0, m, ρ, hm, hin⟩, nd, hi, .inr (by intro h; rw [h] at hb; cases hb)⟩)
    exact linv_done hg e3 hinv hdone hmem h0 hi hl hb hf hc

/-- C35 after any apply that pruning's bookkeeping allows, with any number of packages at a time and any order of their steps: when linking
comes to its end, the commands of the packages extracted in this run are linked. -/
theorem C35_new_concurrent_partial (g0 : Graph Str P S) (h0 : Installable pk g0) (hg : Installable pk g) (d : Disk V I) (recorded : IMap Str (LNode V I))
    (hd : Installed pk g0 d.tree) (hm : d.metaFile = some recorded) (hn : Noticed pk v g0 g recorded) (r : Disk V I × Ext)
    (hr : install pk v g d = some r) (order : List Nat) (ho : order.Perm r.2.pending) (x : LRun) (h : LReach pk cap g order r.1.tree x) :
    Installed pk g x.tree ∧ (x.done = true → ∀ (i : Nat) (nd : Node Str P S) (σ : List Str) (n b : Str) (f : Loc), g.nodes[i]? = some nd →
      LocatedAt g i (σ ++ [n]) → (∀ m ρ, σ ++ [n] = m :: ρ → m.head? ≠ some '@' ∧ ¬ SameTop v g recorded m) →
      (b, f) ∈ pk.bins nd.pkg → nmWord ∉ f → pk.content nd.pkg f ≠ none → CommandLinked pk g σ b x.tree) := by
  have hp : Prev pk v g0 g recorded d.tree := ⟨h0, hg, hd, hn⟩
  obtain ⟨l, y, hl', e1, e2, e3⟩ := hp.install rfl hm
  rw [e1] at hr
  cases hr
  have hinv := linv hg e3 h
  refine ⟨fun p hp e => ?_, ?_⟩
  · rw [hinv.keeps p hp]; exact e3 p hp e
  · intro hdone i nd σ n b f hi hl hnew hb hf hc
    have hi0 : i ≠ 0 := by cases σ <;> exact root_not_cons hg hl
    obtain ⟨m, ρ, hm', hin⟩ := located_cons hg hi0 hi
    have hsame : σ ++ [n] = m :: ρ := by
      have e1 := ((locatedAt_iff hg.tree (ord_of hg)).1 hl).2
      have e2 := ((locatedAt_iff hg.tree (ord_of hg)).1 hm').2
      rw [← e1, ← e2]
    have hmem : i ∈ order := ho.symm.subset ((e2.pending i).2
      ⟨(List.getElem?_eq_some_iff.1 hi).1, ⟨hi0, m, ρ, hm', hin, fun h => h.elim (hnew m ρ hsame).1 (hnew m ρ hsame).2⟩, nd, hi, .inr (by intro h; rw [h] at hb; cases hb)⟩)
    exact linv_done hg e3 hinv hdone hmem hi0 hi hl hb hf hc

/-- C35 after a first install, with one package at a time: linking never fails and does not get stuck. -/
theorem C35_alone (hg : Installable pk g) (d : Disk V I) (hd : Fresh d) (r : Disk V I × Ext) (hr : install pk v g d = some r)
    (order : List Nat) (x : LRun) (h : LReach pk 1 g order r.1.tree x) :
    (∀ ev, lstep pk 1 g x ev ≠ some none) ∧ (x.done = false → ∃ ev y, lstep pk 1 g x ev = some (some y)) := by
  obtain ⟨l, y, hl', e1, e2, e3⟩ := fresh_install (v := v) hg hd
  rw [e1] at hr
  cases hr
  obtain ⟨h1, h2⟩ := lalone hg e3 (fun j nd j0 hj => no_bins_yet hg e2 j0 hj) h
  refine ⟨fun ev hs => ?_, fun hx => ?_⟩
  · obtain ⟨_, e, _⟩ := lalone_step hg e3 h1 h2 hs
    cases e
  · obtain ⟨ev, o, hs⟩ := lprogress (pk := pk) (g := g) (cap := 1) hx
    obtain ⟨z, e, _⟩ := lalone_step hg e3 h1 h2 hs
    exact ⟨ev, z, by rw [hs, e]⟩

end

/-- a run of events -/
def lrun (pk : Pkgs P) (cap : Nat) (g : Graph Str P S) : LRun → List XEvent → Option (Option LRun)
  | x, [] => some (some x)
  | x, ev :: evs => match lstep pk cap g x ev with
    | none => none
    | some none => some none
    | some (some y) => lrun pk cap g y evs

theorem lreach_run {pk : Pkgs P} {cap : Nat} {g : Graph Str P S} {order : List Nat} {t : Tree} :
    ∀ (evs : List XEvent) {x y : LRun}, LReach pk cap g order t x → lrun pk cap g x evs = some (some y) → LReach pk cap g order t y
  | [], _, _, hx, h => by cases h; exact hx
  | ev :: evs, x, y, hx, h => by
    simp only [lrun] at h
    split at h
    · cases h
    · cases h
    · rename_i z hz
      exact lreach_run evs (.step ev hx hz) h

/-- a run that ends in a failure -/
theorem lreach_fails {pk : Pkgs P} {cap : Nat} {g : Graph Str P S} {order : List Nat} {t : Tree} :
    ∀ (evs : List XEvent) {x : LRun}, LReach pk cap g order t x → lrun pk cap g x evs = some none →
      ∃ y ev, LReach pk cap g order t y ∧ lstep pk cap g y ev = some none
  | [], _, _, h => by cases h
  | ev :: evs, x, hx, h => by
    simp only [lrun] at h
    split at h
    · cases h
    · rename_i hs
      exact ⟨x, ev, hx, hs⟩
    · rename_i z hz
      exact lreach_fails evs (.step ev hx hz) h

namespace Ex
/-- as before, but the packages' commands are called `x` and `y` -/
def pk2 : Pkgs Nat := { pk with bins := fun ver => [(if ver = 1 then ['x'] else ['y'], [pj])] }
theorem installable2 (va vb : Nat) : Installable pk2 (pair va vb) :=
  have h := installable va vb
  ⟨h.tree, h.order, h.names, h.dirs, h.bundled⟩

/-- both find that the folder for commands is not known, then both make it -/
def bothMake : List XEvent := [.start, .start, .work 0, .work 0, .work 0, .work 1, .work 1, .work 1, .work 0, .work 1]
/-- both find that there is no such command, then both link it -/
def bothLink : List XEvent := [.start, .start, .work 0, .work 0, .work 0, .work 0, .work 0, .work 0, .work 1, .work 1, .work 0, .work 1, .work 0, .work 1]
/-- one after the other -/
def inTurn : List XEvent := .start :: List.replicate 9 (.work 0) ++ .start :: List.replicate 5 (.work 0)
end Ex

/-- C35 is false of the code when commands are linked for two packages at a time, after a first install of two packages with different
commands: making the folder for the commands can fail for one because the other has just made it. -/
theorem C35_race_fails : ∃ r y ev, Installable Ex.pk2 (Ex.pair 1 2) ∧ install Ex.pk2 Ex.v (Ex.pair 1 2) Ex.none_ = some r ∧ r.2.pending = [1, 2] ∧
    LReach Ex.pk2 2 (Ex.pair 1 2) [1, 2] r.1.tree y ∧ lstep Ex.pk2 2 (Ex.pair 1 2) y ev = some none := by
  have h : (install Ex.pk2 Ex.v (Ex.pair 1 2) Ex.none_).map (fun r =>
      (r.2.pending, (lrun Ex.pk2 2 (Ex.pair 1 2) (linit [1, 2] r.1.tree) Ex.bothMake).map Option.isNone)) = some ([1, 2], some true) := by decide +kernel
  obtain ⟨r, h1, h2⟩ := Option.map_eq_some_iff.1 h
  simp only [Prod.mk.injEq] at h2
  obtain ⟨o, h3, h4⟩ := Option.map_eq_some_iff.1 h2.2
  cases o with
  | some _ => cases h4
  | none =>
    obtain ⟨y, ev, hy, hs⟩ := lreach_fails Ex.bothMake (.init) h3
    exact ⟨r, y, ev, Ex.installable2 1 2, h1, h2.1, hy, hs⟩

/-- C35: so can linking a command that two packages declare. -/
theorem C35_same_race_fails : ∃ r y ev, Installable Ex.pk (Ex.pair 1 1) ∧ install Ex.pk Ex.v (Ex.pair 1 1) Ex.none_ = some r ∧ r.2.pending = [1, 2] ∧
    LReach Ex.pk 2 (Ex.pair 1 1) [1, 2] r.1.tree y ∧ lstep Ex.pk 2 (Ex.pair 1 1) y ev = some none ∧ y.tree [binName, ['x']] ≠ none := by
  have h : (install Ex.pk Ex.v (Ex.pair 1 1) Ex.none_).map (fun r =>
      (r.2.pending, (lrun Ex.pk 2 (Ex.pair 1 1) (linit [1, 2] r.1.tree) Ex.bothLink.dropLast).map fun o => o.map fun y =>
        ((lstep Ex.pk 2 (Ex.pair 1 1) y (.work 1)).map Option.isNone, y.tree [binName, ['x']]))) =
      some ([1, 2], some (some (some true, some (.link [['a'], Ex.pj])))) := by decide +kernel
  obtain ⟨r, h1, h2⟩ := Option.map_eq_some_iff.1 h
  simp only [Prod.mk.injEq] at h2
  obtain ⟨o, h3, h4⟩ := Option.map_eq_some_iff.1 h2.2
  obtain ⟨y, h5, h6⟩ := Option.map_eq_some_iff.1 h4
  subst h5
  simp only [Prod.mk.injEq] at h6
  obtain ⟨o, h7, h8⟩ := Option.map_eq_some_iff.1 h6.1
  cases o with
  | some _ => cases h8
  | none => exact ⟨r, y, .work 1, Ex.installable 1 1, h1, h2.1, lreach_run _ .init h3, h7, by rw [h6.2]; simp⟩

/-- C35_concurrent_partial and C35_alone are about this run, which comes to its end -/
example : ∃ r y, install Ex.pk2 Ex.v (Ex.pair 1 2) Ex.none_ = some r ∧ LReach Ex.pk2 1 (Ex.pair 1 2) [1, 2] r.1.tree y ∧ y.done = true ∧
    y.tree [binName, ['x']] = some (.link [['a'], Ex.pj]) ∧ y.tree [binName, ['y']] = some (.link [['@', 's'], ['b'], Ex.pj]) := by
  have h : (install Ex.pk2 Ex.v (Ex.pair 1 2) Ex.none_).map (fun r =>
      (lrun Ex.pk2 1 (Ex.pair 1 2) (linit [1, 2] r.1.tree) Ex.inTurn).map fun o => o.map fun y =>
        (y.done, y.tree [binName, ['x']], y.tree [binName, ['y']])) =
      some (some (some (true, some (.link [['a'], Ex.pj]), some (.link [['@', 's'], ['b'], Ex.pj])))) := by decide +kernel
  obtain ⟨r, h1, h2⟩ := Option.map_eq_some_iff.1 h
  obtain ⟨o, h3, h4⟩ := Option.map_eq_some_iff.1 h2
  obtain ⟨y, h5, h6⟩ := Option.map_eq_some_iff.1 h4
  subst h5
  simp only [Prod.mk.injEq] at h6
  exact ⟨r, y, h1, lreach_run _ .init h3, h6.1, h6.2.1, h6.2.2⟩

/-! ### one package at a time, when something was installed before -/

namespace Ex
/-- root ⊃ a ⊃ w -/
def nest0 : Graph Str Nat Nat :=
  ⟨[⟨[], 0, [], none, [(['a'], 1)], []⟩, ⟨['a'], 1, [], some 0, [(['w'], 2)], []⟩, ⟨['w'], 1, [], some 1, [], []⟩], []⟩
/-- root ⊃ a ⊃ w, z, x ⊃ y -/
def nest1 : Graph Str Nat Nat :=
  ⟨[⟨[], 0, [], none, [(['a'], 1)], []⟩, ⟨['a'], 1, [], some 0, [(['w'], 2), (['z'], 3), (['x'], 4)], []⟩, ⟨['w'], 1, [], some 1, [], []⟩,
    ⟨['z'], 1, [], some 1, [], []⟩, ⟨['x'], 1, [], some 1, [(['y'], 5)], []⟩, ⟨['y'], 1, [], some 4, [], []⟩], []⟩

theorem nest0_tree : FolderTree nest0 := by
  refine ⟨⟨_, rfl, rfl⟩, ?_, ?_, ?_, ?_⟩
  · intro i nd hi h0
    rcases i with _ | _ | _ | i
    · exact absurd rfl h0
    · cases hi; exact ⟨0, _, rfl, rfl, rfl⟩
    · cases hi; exact ⟨1, _, rfl, rfl, rfl⟩
    · cases hi
  · intro p pn n c hp hc
    have hm := IMap.mem_of_get? hc
    rcases p with _ | _ | _ | p
    · cases hp
      simp only [List.mem_cons, Prod.mk.injEq, List.not_mem_nil, or_false] at hm
      obtain ⟨rfl, rfl⟩ := hm
      exact ⟨_, rfl, rfl, rfl⟩
    · cases hp
      simp only [List.mem_cons, Prod.mk.injEq, List.not_mem_nil, or_false] at hm
      obtain ⟨rfl, rfl⟩ := hm
      exact ⟨_, rfl, rfl, rfl⟩
    · cases hp; simp at hm
    · cases hp
  · intro p pn hp
    rcases p with _ | _ | _ | p <;> cases hp <;> (unfold IMap.WF IMap.keys; simp)
  · intro i nd hi
    have w0 : Within nest0 0 0 := .refl rfl
    have w1 : Within nest0 1 0 := .up rfl rfl w0
    rcases i with _ | _ | _ | i
    · exact w0
    · exact w1
    · exact .up rfl rfl w1
    · cases hi

theorem nest1_tree : FolderTree nest1 := by
  refine ⟨⟨_, rfl, rfl⟩, ?_, ?_, ?_, ?_⟩
  · intro i nd hi h0
    rcases i with _ | _ | _ | _ | _ | _ | i
    · exact absurd rfl h0
    · cases hi; exact ⟨0, _, rfl, rfl, rfl⟩
    · cases hi; exact ⟨1, _, rfl, rfl, rfl⟩
    · cases hi; exact ⟨1, _, rfl, rfl, rfl⟩
    · cases hi; exact ⟨1, _, rfl, rfl, rfl⟩
    · cases hi; exact ⟨4, _, rfl, rfl, rfl⟩
    · cases hi
  · intro p pn n c hp hc
    have hm := IMap.mem_of_get? hc
    rcases p with _ | _ | _ | _ | _ | _ | p
    · cases hp
      simp only [List.mem_cons, Prod.mk.injEq, List.not_mem_nil, or_false] at hm
      obtain ⟨rfl, rfl⟩ := hm
      exact ⟨_, rfl, rfl, rfl⟩
    · cases hp
      simp only [List.mem_cons, Prod.mk.injEq, List.not_mem_nil, or_false] at hm
      rcases hm with ⟨rfl, rfl⟩ | ⟨rfl, rfl⟩ | ⟨rfl, rfl⟩
      · exact ⟨_, rfl, rfl, rfl⟩
      · exact ⟨_, rfl, rfl, rfl⟩
      · exact ⟨_, rfl, rfl, rfl⟩
    · cases hp; simp at hm
    · cases hp; simp at hm
    · cases hp
      simp only [List.mem_cons, Prod.mk.injEq, List.not_mem_nil, or_false] at hm
      obtain ⟨rfl, rfl⟩ := hm
      exact ⟨_, rfl, rfl, rfl⟩
    · cases hp; simp at hm
    · cases hp
  · intro p pn hp
    rcases p with _ | _ | _ | _ | _ | _ | p <;> cases hp <;> (unfold IMap.WF IMap.keys; simp)
  · intro i nd hi
    have w0 : Within nest1 0 0 := .refl rfl
    have w1 : Within nest1 1 0 := .up rfl rfl w0
    have w4 : Within nest1 4 0 := .up rfl rfl w1
    rcases i with _ | _ | _ | _ | _ | _ | i
    · exact w0
    · exact w1
    · exact .up rfl rfl w1
    · exact .up rfl rfl w1
    · exact w4
    · exact .up rfl rfl w4
    · cases hi

theorem instL (c : Char) (h : c ≠ '@' ∧ c ≠ '/' ∧ c ≠ '\\') : FolderName [c] ∧ [c] ≠ binName ∧ [c] ≠ storeName ∧ [c] ≠ metaName ∧ ∀ s, [c] ≠ '@' :: s ++ '/' :: nmWord := by
  refine ⟨.inl ⟨?_, by simp, by simp [nmWord], ?_, ?_⟩, by simp [binName], by simp [storeName], by simp [metaName], by intro s h; simp at h⟩
  all_goals simp [h.1, Ne.symm h.2.1, h.2.2]

theorem nest0_inst : Installable pk nest0 where
  tree := nest0_tree
  order := by
    intro i nd p hi hp
    rcases i with _ | _ | _ | i <;> cases hi <;> cases hp <;> decide
  names := by
    intro i nd h0 hi
    rcases i with _ | _ | _ | i
    · exact absurd rfl h0
    all_goals cases hi
    all_goals exact instL _ (by decide)
  dirs := by intros; rfl
  bundled := by intro i nd r _ _; simp [pk, pj, nmWord]

theorem nest1_inst : Installable pk nest1 where
  tree := nest1_tree
  order := by
    intro i nd p hi hp
    rcases i with _ | _ | _ | _ | _ | _ | i <;> cases hi <;> cases hp <;> decide
  names := by
    intro i nd h0 hi
    rcases i with _ | _ | _ | _ | _ | _ | i
    · exact absurd rfl h0
    all_goals cases hi
    all_goals exact instL _ (by decide)
  dirs := by intros; rfl
  bundled := by intro i nd r _ _; simp [pk, pj, nmWord]

/-- the disk after the first tree was applied to an empty project -/
def before : Disk Nat Nat := ((applyTree pk v nest0 none_).getD (none_, ⟨fun _ => none, [], 0⟩)).1

/-- first `y`, which makes the folder `a/node_modules/x/node_modules/.bin` and remembers those above it; then `z` -/
def yThenZ : List XEvent := .start :: List.replicate 14 (.work 0) ++ .start :: List.replicate 4 (.work 0)
end Ex

/-- C35 is false of the code even for one package at a time, if something was installed before: packages nested in one that stays
(here `y` inside `x`, and `z`) are added, and whether this works depends on the order in which they are gone through: the folder for
`z`'s command exists since before, which `mkdirp` takes for an error once it knows the folder above. -/
theorem C35_order_fails : ∃ r y ev, Installable Ex.pk Ex.nest0 ∧ Installable Ex.pk Ex.nest1 ∧ Installed Ex.pk Ex.nest0 Ex.before.tree ∧
    Recorded Ex.v Ex.nest0 Ex.before.metaFile ∧ install Ex.pk Ex.v Ex.nest1 Ex.before = some r ∧ r.2.pending = [3, 4, 5] ∧
    LReach Ex.pk 1 Ex.nest1 [5, 3, 4] r.1.tree y ∧ lstep Ex.pk 1 Ex.nest1 y ev = some none := by
  have hb : Installed Ex.pk Ex.nest0 Ex.before.tree ∧ Recorded Ex.v Ex.nest0 Ex.before.metaFile := by
    obtain ⟨r, h1, h2, h3⟩ := C33_fresh Ex.pk Ex.v Ex.nest0 Ex.nest0_inst Ex.none_ ⟨rfl, .inl fun _ => rfl⟩
    unfold Ex.before
    rw [h1]
    exact ⟨h2, h3⟩
  have h : (install Ex.pk Ex.v Ex.nest1 Ex.before).map (fun r =>
      (r.2.pending, (lrun Ex.pk 1 Ex.nest1 (linit [5, 3, 4] r.1.tree) Ex.yThenZ).map Option.isNone)) = some ([3, 4, 5], some true) := by decide +kernel
  obtain ⟨r, h1, h2⟩ := Option.map_eq_some_iff.1 h
  simp only [Prod.mk.injEq] at h2
  obtain ⟨o, h3, h4⟩ := Option.map_eq_some_iff.1 h2.2
  cases o with
  | some _ => cases h4
  | none =>
    obtain ⟨y, ev, hy, hs⟩ := lreach_fails Ex.yThenZ (.init) h3
    exact ⟨r, y, ev, Ex.nest0_inst, Ex.nest1_inst, hb.1, hb.2, h1, h2.1, hy, hs⟩

/-- in another order it works -/
example : ∃ r y, install Ex.pk Ex.v Ex.nest1 Ex.before = some r ∧ LReach Ex.pk 1 Ex.nest1 [3, 4, 5] r.1.tree y ∧ y.done = true := by
  have h : (install Ex.pk Ex.v Ex.nest1 Ex.before).map (fun r =>
      (lrun Ex.pk 1 Ex.nest1 (linit [3, 4, 5] r.1.tree) (.start :: List.replicate 13 (.work 0) ++ .start :: List.replicate 6 (.work 0) ++
        .start :: List.replicate 14 (.work 0))).map fun o => o.map fun y => y.done) = some (some (some true)) := by decide +kernel
  obtain ⟨r, h1, h2⟩ := Option.map_eq_some_iff.1 h
  obtain ⟨o, h3, h4⟩ := Option.map_eq_some_iff.1 h2
  obtain ⟨y, h5, h6⟩ := Option.map_eq_some_iff.1 h4
  subst h5
  exact ⟨r, y, h1, lreach_run _ .init h3, h6⟩

end Hoisted
end Oro
