import Verif.Proofs.HoistedBins
/-
C32–C35: the hoisted node_modules on disk.
-/
set_option linter.unusedSectionVars false
namespace Oro
namespace Hoisted
variable {P S V I : Type} [DecidableEq V] [DecidableEq I] [DecidableEq S]

/-! ### C32 -/

/-- C32 (top level): pruning removes everything under an unscoped top-level name unless the meta file records exactly
the package the new tree has there; then it keeps everything. -/
theorem C32_top_partial (pk : Pkgs P) (v : LockView P S V I) (g : Graph Str P S) (hg : Installable pk g) (d : Disk V I)
    (recorded : IMap Str (LNode V I)) (hr : d.tree [] ≠ none) (hs : d.tree [storeName] = none)
    (hm : d.metaFile = some recorded) (n : Str) (hn : FolderName n) (hu : n.head? ≠ some '@') (hb : n ≠ binName)
    (hst : n ≠ storeName) (hme : n ≠ metaName) (x : Loc) :
    (SameTop v g recorded n → (prune v g d).tree (n :: x) = d.tree (n :: x)) ∧
    (¬ SameTop v g recorded n → (prune v g d).tree (n :: x) = none) := by
  have hin : InstName n := ⟨hn, hb, hst, hme, fun s h => hu (by rw [h]; rfl)⟩
  have hsg : nameSegs n = [n] := by
    rcases hn with ⟨h1, _⟩ | ⟨s, t, rfl, _⟩
    · exact nameSegs_plain h1
    · exact absurd rfl hu
  have := survives_iff (v := v) hg.tree (actual := recorded) hin (p := n :: x) (y := x) (by simp) (by rw [hsg]; exact List.prefix_rfl)
  rw [prune_eq hr hs hm]
  dsimp only [prunedTree]
  constructor
  · intro h
    rw [if_pos (this.2 (.inr h))]
  · intro h
    rw [if_neg]
    rw [this]
    rintro (h' | h')
    · exact hu h'
    · exact h h'

/-- C32 is false of the code for scoped packages: whatever is under a scoped name is never removed. -/
theorem C32_scoped_fails (pk : Pkgs P) (v : LockView P S V I) (g : Graph Str P S) (hg : Installable pk g) (d : Disk V I)
    (recorded : IMap Str (LNode V I)) (hr : d.tree [] ≠ none) (hs : d.tree [storeName] = none)
    (hm : d.metaFile = some recorded) (s t : Str) (hs1 : '/' ∉ s) (ht : '/' ∉ t) (ht2 : t ≠ ['\\']) (ht3 : t.head? ≠ some '@')
    (ht4 : t ≠ nmWord) (x : Loc) : (prune v g d).tree (('@' :: s) :: t :: x) = d.tree (('@' :: s) :: t :: x) := by
  have hin : InstName ('@' :: s ++ '/' :: t) := by
    refine ⟨.inr ⟨s, t, rfl, hs1, ht, ht2, ht3⟩, by simp [binName], by simp [storeName], by simp [metaName], ?_⟩
    intro s' h
    simp only [List.cons_append, List.cons.injEq, true_and] at h
    -- the part after the slash
    have h2 := congrArg (PSpec.splitChar '/') h
    rw [PSpec.splitChar_two hs1 ht, splitChar_append, splitChar_one nmWord_noslash] at h2
    have h3 := congrArg List.getLast? h2
    simp only [List.getLast?_append, List.getLast?_singleton, Option.some_or] at h3
    simp at h3
    exact ht4 h3
  have := survives_iff (v := v) hg.tree (actual := recorded) hin (p := ('@' :: s) :: t :: x) (y := x) (by simp)
    (by rw [nameSegs_scoped hs1 ht]; exact List.prefix_rfl)
  rw [prune_eq hr hs hm]
  dsimp only [prunedTree]
  rw [if_pos (this.2 (.inl rfl))]

/-- C32: with no readable meta file everything is removed. -/
theorem C32_unknown (v : LockView P S V I) (g : Graph Str P S) (d : Disk V I) (hr : d.tree [] ≠ none)
    (hm : d.metaFile = none) (p : Loc) (hp : p ≠ []) : (prune v g d).tree p = none := by
  unfold prune
  rw [if_neg hr, hm]
  simp [wiped, hp]

/-- C32: what the isolated linker left (its store is there) is never relied on, whatever the meta file says: pruning empties
node_modules. -/
theorem C32_isolated (v : LockView P S V I) (g : Graph Str P S) (d : Disk V I) (hr : d.tree [] ≠ none)
    (hs : d.tree [storeName] ≠ none) (p : Loc) (hp : p ≠ []) :
    (prune v g d).tree p = none ∧ (prune v g d).metaFile = none := by
  unfold prune
  rw [if_neg hr]
  cases d.metaFile with
  | none => simp [wiped, hp]
  | some r => simp only [if_pos hs]; simp [wiped, hp]

/-! ### C33 -/

theorem top_ne_zero {g : Graph Str P S} {hot : Str → Prop} {i : Nat} (h : Top g hot i) : i ≠ 0 := h.1

/-- C33: installing into a project without node_modules (or without a readable meta file) gives exactly the packages of
the tree. -/
theorem C33_fresh (pk : Pkgs P) (v : LockView P S V I) (g : Graph Str P S) (hg : Installable pk g) (d : Disk V I)
    (hd : Fresh d) : ∃ r, applyTree pk v g d = some r ∧ Installed pk g r.1.tree ∧ Recorded v g r.1.metaFile := by
  obtain ⟨l, y, hl, h1, h2, h3⟩ := fresh_install (v := v) hg hd
  refine ⟨_, by rw [applyTree, h1]; rfl, ?_, recorded_self hl⟩
  exact linkBins_installed hg h3 fun i hi => ((h2.pending i).1 hi).2.1.1

/-- C33: installing where the isolated linker was used before, whatever it left and recorded, gives exactly the packages
of the tree. -/
theorem C33_switch (pk : Pkgs P) (v : LockView P S V I) (g : Graph Str P S) (hg : Installable pk g) (d : Disk V I)
    (hd : d.tree [] = some .dir) (hs : d.tree [storeName] ≠ none) :
    ∃ r, applyTree pk v g d = some r ∧ Installed pk g r.1.tree ∧ Recorded v g r.1.metaFile := by
  have h : prune v g d = prune v g ⟨d.tree, none⟩ := by
    unfold prune
    simp only [hd, reduceCtorEq, if_false]
    cases d.metaFile with
    | none => rfl
    | some r => simp only [if_pos hs]
  obtain ⟨r, h1, h2⟩ := C33_fresh pk v g hg ⟨d.tree, none⟩ ⟨rfl, .inr hd⟩
  refine ⟨r, ?_, h2⟩
  unfold applyTree install at h1 ⊢
  rw [h]
  exact h1

/-- its hypotheses hold of a disk with a store, an old link and a meta file -/
example : ∃ d : Disk Nat Nat, d.tree [] = some .dir ∧ d.tree [storeName] ≠ none ∧ d.tree [['a']] ≠ none ∧ d.metaFile ≠ none :=
  ⟨⟨fun p => if p = [] ∨ p = [storeName] then some .dir else some (.link [storeName]), some []⟩, rfl, nofun, nofun, nofun⟩

/-- C33, for changes that pruning notices: whatever tree was installed before, applying gives exactly the packages of the
new tree. -/
theorem C33_partial (pk : Pkgs P) (v : LockView P S V I) (g0 g1 : Graph Str P S) (h0 : Installable pk g0)
    (h1 : Installable pk g1) (d : Disk V I) (recorded : IMap Str (LNode V I)) (hd : Installed pk g0 d.tree)
    (hm : d.metaFile = some recorded) (hn : Noticed pk v g0 g1 recorded) :
    ∃ r, applyTree pk v g1 d = some r ∧ Installed pk g1 r.1.tree ∧ Recorded v g1 r.1.metaFile := by
  have hp : Prev pk v g0 g1 recorded d.tree := ⟨h0, h1, hd, hn⟩
  obtain ⟨l, y, hl, e1, e2, e3⟩ := hp.install rfl hm
  refine ⟨_, by rw [applyTree, e1]; rfl, ?_, recorded_self hl⟩
  exact linkBins_installed h1 e3 fun i hi => ((e2.pending i).1 hi).2.1.1

/-- C33: applying the same tree again removes and extracts nothing. -/
theorem C33_again (pk : Pkgs P) (v : LockView P S V I) (g : Graph Str P S) (hg : Installable pk g) (d : Disk V I)
    (hd : Installed pk g d.tree) (hm : Recorded v g d.metaFile) :
    (∀ p, ¬ InBin p → (prune v g d).tree p = d.tree p) ∧
    ∃ r, applyTree pk v g d = some r ∧ r.2.count = 0 ∧ r.2.pending = [] ∧ (∀ p, ¬ InBin p → r.1.tree p = d.tree p) ∧
      Recorded v g r.1.metaFile := by
  have hm' := hm
  obtain ⟨_, recorded, _, hrec, _⟩ := hm'
  rw [hrec] at hm
  have hp : Prev pk v g g recorded d.tree := ⟨hg, hg, hd, noticed_refl⟩
  obtain ⟨l, y, hl, e1, e2, e3⟩ := hp.install rfl hrec
  have hnone : y.pending = [] := by
    rw [List.eq_nil_iff_forall_not_mem]
    intro i hi
    exact nothing_hot hg hm i ((e2.pending i).1 hi).2.1
  refine ⟨?_, _, by rw [applyTree, e1]; rfl, e2.count fun i _ => nothing_hot hg hm i, hnone, ?_, recorded_self hl⟩
  · intro p hb
    rw [prune_eq (by rw [hp.root]; simp) hp.store hrec]
    dsimp only [prunedTree]
    split
    · rfl
    · rename_i hsv
      cases hx : d.tree p with
      | none => rfl
      | some e =>
        exfalso
        rcases expected_top hg ((hd p hb e).1 hx) with ⟨rfl, _⟩ | ⟨hpe, n, y, hn, hpre, hcase⟩
        · exact hsv rfl
        · refine hsv ((survives_iff hg.tree hn hpe hpre).2 (.inr ?_))
          have hl : ∃ i ρ, LocatedAt g i (n :: ρ) := by
            rcases hcase with ⟨i, _, ρ, _, _, _, h, _⟩ | ⟨_, i, ρ, _, h, _⟩
            · exact ⟨i, ρ, h⟩
            · exact ⟨i, ρ, h⟩
          obtain ⟨i, ρ, hl⟩ := hl
          obtain ⟨j, hj, _⟩ := located_prefix hl [n] ρ rfl
          exact sameTop_of_recorded hg hm hj
  · intro p hb
    show linkBins pk g y.pending y.tree p = _
    rw [linkBins_keeps hg e3 (fun i hi => ((e2.pending i).1 hi).2.1.1) p hb]
    apply Option.ext
    intro e
    rw [e3 p hb e, hd p hb e]

/-- C33 over any number of applies, starting from an unknown or empty node_modules: each step's changes must be ones that
pruning notices. -/
inductive History (pk : Pkgs P) (v : LockView P S V I) : Graph Str P S → Disk V I → Prop where
  | first (g : Graph Str P S) (d : Disk V I) (r : Disk V I × Ext) : Installable pk g → Fresh d → applyTree pk v g d = some r →
      History pk v g r.1
  | next (g0 g1 : Graph Str P S) (d : Disk V I) (recorded : IMap Str (LNode V I)) (r : Disk V I × Ext) : History pk v g0 d →
      Installable pk g1 → d.metaFile = some recorded → Noticed pk v g0 g1 recorded → applyTree pk v g1 d = some r →
      History pk v g1 r.1

theorem C33_history_partial (pk : Pkgs P) (v : LockView P S V I) (g : Graph Str P S) (d : Disk V I)
    (h : History pk v g d) : Installable pk g ∧ Installed pk g d.tree ∧ Recorded v g d.metaFile := by
  induction h with
  | first g d r hg hd hr =>
    obtain ⟨r', h1, h2, h3⟩ := C33_fresh pk v g hg d hd
    rw [hr] at h1; cases h1
    exact ⟨hg, h2, h3⟩
  | next g0 g1 d recorded r _ hg1 hm hn hr ih =>
    obtain ⟨r', h1, h2, h3⟩ := C33_partial pk v g0 g1 ih.1 hg1 d recorded ih.2.1 hm hn
    rw [hr] at h1; cases h1
    exact ⟨hg1, h2, h3⟩

/-! ### C34 -/

theorem prune_interrupted {pk : Pkgs P} {v : LockView P S V I} {g0 g : Graph Str P S} {recorded : IMap Str (LNode V I)}
    {d d' : Disk V I} (hp : Prev pk v g0 g recorded d.tree) (hm : d.metaFile = some recorded)
    (hi : Interrupted pk v g d d') : prune v g d' = prune v g d ∨
      ∃ r, install pk v g d = some r ∧ ∀ p, ¬ InBin p → d'.tree p = r.1.tree p := by
  have hpr := prune_eq (g := g) (v := v) (d := d) (by rw [hp.root]; simp) hp.store hm
  have hroot : (prunedTree v g recorded d.tree) [] = some .dir := hp.base.root
  have hstore : (prunedTree v g recorded d.tree) [storeName] = none := by
    unfold prunedTree; rw [hp.store]; simp
  cases hi with
  | pruning hmeta htree =>
    left
    rw [hpr] at hmeta htree ⊢
    dsimp only at hmeta htree
    have hm' : d'.metaFile = some recorded := by rcases hmeta with h | h <;> simp [h, hm]
    rw [prune_eq _ _ hm']
    · congr 1
      funext p
      unfold prunedTree
      split
      · rename_i hsv
        rcases htree p with h | h
        · exact h
        · rw [h]; simp [prunedTree, hsv]
      · rfl
    · rcases htree [] with h | h
      · rw [h, hp.root]; simp
      · rw [h, hroot]; simp
    · rcases htree [storeName] with h | h
      · rw [h, hp.store]
      · rw [h]; exact hstore
  | extracting r hr hmeta htree =>
    left
    obtain ⟨l, y, hl, e1, e2, e3⟩ := hp.install rfl hm
    rw [e1] at hr; cases hr
    rw [hpr] at hmeta htree ⊢
    dsimp only at htree hmeta
    -- a path that survives pruning and has nothing there gets nothing
    have hquiet : ∀ p, survives v g recorded [] p = true → prunedTree v g recorded d.tree p = none → y.tree p = none := by
      intro p hsv hT
      cases hx : y.tree p with
      | none => rfl
      | some e =>
        exfalso
        rcases (e2.tree p e).1 hx with h | ⟨i, _, htop, hput⟩
        · rw [hT] at h; cases h
        · have hpe : p ≠ [] := by rintro rfl; rw [hroot] at hT; cases hT
          obtain ⟨h0, n, ρ, hl', hn, hc⟩ := htop
          have hpre : ∃ z, p <+: nameSegs n ++ z := by
            have hloc := ((locatedAt_iff hp.new.tree (ord_of hp.new)).1 hl').2
            rcases hput with ⟨nd, π, r, _, a2, a3, _⟩ | ⟨_, _, π, a2, a3⟩
            · have := ((locatedAt_iff hp.new.tree (ord_of hp.new)).1 a2).2
              rw [hloc] at this
              subst this
              rw [folder_cons] at a3
              simp only [List.cons_append, List.cons.injEq, true_and, List.append_assoc] at a3
              exact ⟨folder ρ ++ r, by rw [a3]; exact List.prefix_rfl⟩
            · have := ((locatedAt_iff hp.new.tree (ord_of hp.new)).1 a2).2
              rw [hloc] at this
              subst this
              rw [folder_cons] at a3
              obtain ⟨z, hz⟩ := a3
              simp only [List.cons_append, List.cons.injEq, true_and] at hz
              exact ⟨folder ρ, z, hz⟩
          obtain ⟨z, hz⟩ := hpre
          exact hc ((survives_iff hp.new.tree hn hpe hz).1 hsv)
    have hsame : ∀ p, survives v g recorded [] p = true → d'.tree p = prunedTree v g recorded d.tree p := by
      intro p hsv
      rcases htree p with h | ⟨hT, h | ⟨c, c', _, h1, h2⟩⟩
      · exact h
      · rw [h, hT]; exact hquiet p hsv hT
      · rw [hquiet p hsv hT] at h2; cases h2
    rw [prune_eq _ _ hmeta]
    · congr 1
      funext p
      by_cases hsv : survives v g recorded [] p = true
      · rw [← hsame p hsv]; simp [prunedTree, hsv]
      · simp [prunedTree, hsv]
    · rw [hsame [] rfl, hroot]; simp
    · cases hx : d'.tree [storeName] with
      | none => rfl
      | some e =>
        exfalso
        rcases htree [storeName] with h | ⟨_, h⟩
        · rw [h, hstore] at hx; cases hx
        · have : ∃ e', y.tree [storeName] = some e' := by
            rcases h with h | ⟨_, c', _, _, h2⟩
            · exact ⟨e, by rw [← h]; exact hx⟩
            · exact ⟨_, h2⟩
          obtain ⟨e', he'⟩ := this
          refine not_expected_store hp.new ((e3 _ ?_ e').1 he')
          rintro ⟨q, r, hq, _⟩
          cases q with
          | nil => simp only [List.nil_append, List.cons.injEq] at hq; exact absurd hq.1 (by decide)
          | cons a q => simp at hq
  | extracted r hr htree => exact .inr ⟨r, hr, htree⟩

/-- C34, for the same tree: if applying is interrupted anywhere and then done again for the same tree, exactly the
packages of the tree are installed – from an empty or unknown node_modules, or from any installed tree whose changes
pruning notices. -/
theorem C34_same_partial (pk : Pkgs P) (v : LockView P S V I) (g : Graph Str P S) (hg : Installable pk g) (d d' : Disk V I)
    (hd : Fresh d ∨ ∃ g0 recorded, Installable pk g0 ∧ Installed pk g0 d.tree ∧ d.metaFile = some recorded ∧
      Noticed pk v g0 g recorded)
    (hi : Interrupted pk v g d d') (hs : Sane d'.tree) :
    ∃ r, applyTree pk v g d' = some r ∧ Installed pk g r.1.tree ∧ Recorded v g r.1.metaFile := by
  -- if extraction was complete
  have done : ∀ t, Installed pk g t → (∀ p, ¬ InBin p → d'.tree p = t p) →
      ∃ r, applyTree pk v g d' = some r ∧ Installed pk g r.1.tree ∧ Recorded v g r.1.metaFile := by
    intro t ht h
    have hinst : Installed pk g d'.tree := by
      intro p hb e; rw [h p hb]; exact ht p hb e
    cases hm : d'.metaFile with
    | none =>
      refine C33_fresh pk v g hg d' ⟨hm, .inr ?_⟩
      exact (hinst [] not_inBin_nil .dir).2 (.inr ⟨rfl, .inl rfl⟩)
    | some recorded => exact C33_partial pk v g g hg hg d' recorded hinst hm noticed_refl
  rcases hd with hf | ⟨g0, recorded, h0, h1, hm, hn⟩
  · have hpn : (prune v g d).metaFile = none ∧ ((prune v g d).tree [] = some .dir ∨ ∀ p, (prune v g d).tree p = none) := by
      obtain ⟨hm, hd | hr⟩ := hf
      · unfold prune; rw [if_pos (hd [])]; exact ⟨rfl, .inr hd⟩
      · unfold prune; rw [hr, hm]; simp [wiped]
    cases hi with
    | pruning hmeta htree =>
      refine C33_fresh pk v g hg d' ⟨?_, ?_⟩
      · rcases hmeta with h | h
        · rw [h]; exact hf.1
        · rw [h]; exact hpn.1
      · cases hx : d'.tree [] with
        | none => exact .inl (hs hx)
        | some e =>
          right
          rcases htree [] with h | h
          · rw [h] at hx
            rcases hf.2 with h2 | h2
            · rw [h2] at hx; cases hx
            · rw [← hx, h2]
          · rw [h] at hx
            rcases hpn.2 with h2 | h2
            · rw [← hx, h2]
            · rw [h2] at hx; cases hx
    | extracting r hr hmeta htree =>
      obtain ⟨l, y, hl, e1, e2, e3⟩ := fresh_install (v := v) hg hf
      rw [e1] at hr; cases hr
      have hy : y.tree [] = some .dir := (e3 [] not_inBin_nil .dir).2 (.inr ⟨rfl, .inl rfl⟩)
      refine C33_fresh pk v g hg d' ⟨by rw [hmeta]; exact hpn.1, ?_⟩
      cases hx : d'.tree [] with
      | none => exact .inl (hs hx)
      | some e =>
        right
        rcases htree [] with h | ⟨_, h | ⟨c, c', _, _, h⟩⟩
        · rw [h] at hx
          rcases hpn.2 with h2 | h2
          · rw [← hx, h2]
          · rw [h2] at hx; cases hx
        · rw [h] at hx; rw [← hx]; exact hy
        · dsimp only at h; rw [hy] at h; cases h
    | extracted r hr htree =>
      obtain ⟨l, y, hl, e1, e2, e3⟩ := fresh_install (v := v) hg hf
      rw [e1] at hr; cases hr
      exact done y.tree e3 htree
  · have hp : Prev pk v g0 g recorded d.tree := ⟨h0, hg, h1, hn⟩
    obtain ⟨l, y, hl, e1, e2, e3⟩ := hp.install rfl hm
    rcases prune_interrupted hp hm hi with h | ⟨r, hr, h⟩
    · have hinst : install pk v g d' = install pk v g d := by unfold install; rw [h]
      refine ⟨_, by rw [applyTree, hinst, e1]; rfl, ?_, recorded_self hl⟩
      exact linkBins_installed hg e3 fun i hi => ((e2.pending i).1 hi).2.1.1
    · rw [e1] at hr; cases hr
      exact done y.tree e3 h

/-- C34: as long as no meta file is there, whatever an interrupted apply left is repaired by applying any tree. -/
theorem C34_fresh_partial (pk : Pkgs P) (v : LockView P S V I) (g : Graph Str P S) (hg : Installable pk g) (d' : Disk V I)
    (hm : d'.metaFile = none) (hr : d'.tree [] = some .dir) :
    ∃ r, applyTree pk v g d' = some r ∧ Installed pk g r.1.tree ∧ Recorded v g r.1.metaFile :=
  C33_fresh pk v g hg d' ⟨hm, .inr hr⟩

/-- C34 is false of the code for scripts: if an apply is interrupted after extraction and before (or while) the lifecycle
scripts run, the next apply of the same tree runs none of them and links no command. -/
theorem C34_scripts_fails (pk : Pkgs P) (v : LockView P S V I) (g : Graph Str P S) (hg : Installable pk g) (d d' : Disk V I)
    (r : Disk V I × Ext) (hf : Fresh d) (hr : install pk v g d = some r) (hd : d' = r.1) :
    Interrupted pk v g d d' ∧
    ∃ r', applyTree pk v g d' = some r' ∧ r'.2.pending = [] ∧ ∀ x, r'.1.tree (binName :: x) = none := by
  obtain ⟨l, y, hl, e1, e2, e3⟩ := fresh_install (v := v) hg hf
  rw [e1] at hr; cases hr
  subst hd
  refine ⟨.extracted _ _ e1 fun _ _ => rfl, ?_⟩
  obtain ⟨_, r', h1, _, h3, _⟩ := C33_again pk v g hg ⟨y.tree, some l.packages⟩ e3 (recorded_self hl)
  refine ⟨r', h1, h3, ?_⟩
  intro x
  unfold applyTree at h1
  obtain ⟨q, _, hq⟩ := Option.map_eq_some_iff.1 h1
  subst hq
  simp only at h3
  rw [h3]
  simp [linkBins, cleared]

/-! ### C35 -/

/-- C35 for a first install: each command declared by an installed package (and whose file exists) is linked, in whatever
order packages are handled. -/
theorem C35_fresh_partial (pk : Pkgs P) (v : LockView P S V I) (g : Graph Str P S) (hg : Installable pk g) (d : Disk V I)
    (hd : Fresh d) (r : Disk V I × Ext) (hr : install pk v g d = some r) (order : List Nat) (ho : order.Perm r.2.pending)
    (i : Nat) (nd : Node Str P S) (σ : List Str) (n b : Str) (x : Loc) (hi : g.nodes[i]? = some nd)
    (hl : LocatedAt g i (σ ++ [n])) (hb : (b, x) ∈ pk.bins nd.pkg) (hx : nmWord ∉ x) (hc : pk.content nd.pkg x ≠ none) :
    CommandLinked pk g σ b (linkBins pk g order r.1.tree) := by
  obtain ⟨l, y, hl', e1, e2, e3⟩ := fresh_install (v := v) hg hd
  rw [e1] at hr; cases hr
  have h0 : i ≠ 0 := by cases σ <;> exact root_not_cons hg hl
  have hlen := (List.getElem?_eq_some_iff.1 hi).1
  obtain ⟨m, ρ, hm, hin⟩ := located_cons hg h0 hi
  have hmem : i ∈ order := ho.symm.subset ((e2.pending i).2
    ⟨hlen, ⟨h0, m, ρ, hm, hin⟩, nd, hi, .inr (by intro h; rw [h] at hb; cases hb)⟩)
  obtain ⟨j, ndj, n', x', p, hj, hjn, hjl, hjb, hp, hs⟩ := linkBins_linked hg e3
    (fun k hk => ((e2.pending k).1 (ho.subset hk)).2.1.1) hmem hi hl hb hx hc
  have hj0 : j ≠ 0 := by cases σ <;> exact root_not_cons hg hjl
  exact ⟨j, ndj, n', x', p, targetDir g j ++ x', hjn, hjl, hjb, hp,
    by rw [← List.cons_append, target_folder hg.tree (ord_of hg) hj0 hjl], hs⟩

/-- C35 after any apply that pruning's bookkeeping allows: the commands of the packages extracted in this run are linked. -/
theorem C35_new_partial (pk : Pkgs P) (v : LockView P S V I) (g0 g1 : Graph Str P S) (h0 : Installable pk g0)
    (h1 : Installable pk g1) (d : Disk V I) (recorded : IMap Str (LNode V I)) (hd : Installed pk g0 d.tree)
    (hm : d.metaFile = some recorded) (hn : Noticed pk v g0 g1 recorded) (r : Disk V I × Ext)
    (hr : install pk v g1 d = some r) (order : List Nat) (ho : order.Perm r.2.pending)
    (i : Nat) (nd : Node Str P S) (σ : List Str) (n b : Str) (x : Loc) (hi : g1.nodes[i]? = some nd)
    (hl : LocatedAt g1 i (σ ++ [n])) (hnew : ∀ m ρ, σ ++ [n] = m :: ρ → m.head? ≠ some '@' ∧ ¬ SameTop v g1 recorded m)
    (hb : (b, x) ∈ pk.bins nd.pkg) (hx : nmWord ∉ x) (hc : pk.content nd.pkg x ≠ none) :
    CommandLinked pk g1 σ b (linkBins pk g1 order r.1.tree) := by
  have hp : Prev pk v g0 g1 recorded d.tree := ⟨h0, h1, hd, hn⟩
  obtain ⟨l, y, hl', e1, e2, e3⟩ := hp.install rfl hm
  rw [e1] at hr; cases hr
  have hi0 : i ≠ 0 := by cases σ <;> exact root_not_cons h1 hl
  have hlen := (List.getElem?_eq_some_iff.1 hi).1
  obtain ⟨m, ρ, hm', hin⟩ := located_cons h1 hi0 hi
  have hpath := ((locatedAt_iff h1.tree (ord_of h1)).1 hl).2.symm.trans ((locatedAt_iff h1.tree (ord_of h1)).1 hm').2
  have hmem : i ∈ order := ho.symm.subset ((e2.pending i).2
    ⟨hlen, ⟨hi0, m, ρ, hm', hin, fun h => h.elim (hnew m ρ hpath).1 (hnew m ρ hpath).2⟩, nd, hi,
      .inr (by intro h; rw [h] at hb; cases hb)⟩)
  obtain ⟨j, ndj, n', x', p, hj, hjn, hjl, hjb, hp', hs⟩ := linkBins_linked h1 e3
    (fun k hk => ((e2.pending k).1 (ho.subset hk)).2.1.1) hmem hi hl hb hx hc
  have hj0 : j ≠ 0 := by cases σ <;> exact root_not_cons h1 hjl
  exact ⟨j, ndj, n', x', p, targetDir g1 j ++ x', hjn, hjl, hjb, hp',
    by rw [← List.cons_append, target_folder h1.tree (ord_of h1) hj0 hjl], hs⟩

/-- C35 is false of the code for packages that were already installed: applying an unchanged tree again removes
`node_modules/.bin` with every command in it. -/
theorem C35_fails (pk : Pkgs P) (v : LockView P S V I) (g : Graph Str P S) (hg : Installable pk g) (d : Disk V I)
    (hd : Installed pk g d.tree) (hm : Recorded v g d.metaFile) :
    ∃ r, applyTree pk v g d = some r ∧ ∀ x, r.1.tree (binName :: x) = none := by
  obtain ⟨_, r', h1, _, h3, _⟩ := C33_again pk v g hg d hd hm
  refine ⟨r', h1, ?_⟩
  intro x
  unfold applyTree at h1
  obtain ⟨q, _, hq⟩ := Option.map_eq_some_iff.1 h1
  subst hq
  simp only at h3
  rw [h3]
  simp [linkBins, cleared]

/-! ### examples -/

namespace Ex
def sb : Str := ['@', 's', '/', 'b']
def pj : Str := ['p']
/-- root ⊃ a, @s/b, with these versions -/
def pair (va vb : Nat) : Graph Str Nat Nat :=
  ⟨[⟨[], 0, [], none, [(['a'], 1), (sb, 2)], []⟩, ⟨['a'], va, [], some 0, [], []⟩, ⟨sb, vb, [], some 0, [], []⟩], []⟩

def fileOf (ver : Nat) : Bytes := [UInt8.ofNat ver]
/-- every package is a folder with one file, which is also a command -/
def pk : Pkgs Nat where
  content ver p := if p = [] then some .dir else if p = [pj] then some (.file (fileOf ver)) else none
  scripts _ := true
  bins _ := [(['x'], [pj])]
def v : LockView Nat Nat Nat Nat := ⟨fun _ => [], fun p => .npm p [] none, fun _ => []⟩
def none_ : Disk Nat Nat := ⟨fun _ => none, none⟩

theorem tree (va vb : Nat) : FolderTree (pair va vb) := by
  refine ⟨⟨_, rfl, rfl⟩, ?_, ?_, ?_, ?_⟩
  · intro i nd hi h0
    rcases i with _ | _ | _ | i
    · exact absurd rfl h0
    · cases hi; exact ⟨0, _, rfl, rfl, rfl⟩
    · cases hi; exact ⟨0, _, rfl, rfl, rfl⟩
    · cases hi
  · intro p pn n c hp hc
    have hm := IMap.mem_of_get? hc
    rcases p with _ | _ | _ | p
    · cases hp
      simp only [List.mem_cons, Prod.mk.injEq, List.not_mem_nil, or_false] at hm
      rcases hm with ⟨rfl, rfl⟩ | ⟨rfl, rfl⟩
      · exact ⟨_, rfl, rfl, rfl⟩
      · exact ⟨_, rfl, rfl, rfl⟩
    · cases hp; simp at hm
    · cases hp; simp at hm
    · cases hp
  · intro p pn hp
    rcases p with _ | _ | _ | p <;> cases hp <;> (unfold IMap.WF IMap.keys; simp [sb])
  · intro i nd hi
    have w0 : Within (pair va vb) 0 0 := .refl rfl
    rcases i with _ | _ | _ | i
    · exact w0
    · exact .up rfl rfl w0
    · exact .up rfl rfl w0
    · cases hi

theorem instA : InstName ['a'] := ⟨.inl (by decide), by decide, by decide, by decide, by intro s h; cases h⟩
theorem instB : InstName sb := by
  refine ⟨.inr ⟨['s'], ['b'], rfl, by decide⟩, by decide, by decide, by decide, ?_⟩
  intro s h
  have h1 := congrArg List.reverse h
  simp [sb, nmWord] at h1

theorem installable (va vb : Nat) : Installable pk (pair va vb) where
  tree := tree va vb
  order := by
    intro i nd p hi hp
    rcases i with _ | _ | _ | i <;> cases hi <;> cases hp <;> decide
  names := by
    intro i nd h0 hi
    rcases i with _ | _ | _ | i
    · exact absurd rfl h0
    · cases hi; exact instA
    · cases hi; exact instB
    · cases hi
  dirs := by intro i nd _ _; rfl
  bundled := by
    intro i nd r _
    simp [pk, nmWord, pj]

theorem located (va vb : Nat) {i : Nat} {π : List Str} (h : LocatedAt (pair va vb) i π) :
    (i = 0 ∧ π = []) ∨ (i = 1 ∧ π = [['a']]) ∨ (i = 2 ∧ π = [sb]) := by
  have := (locatedAt_iff (tree va vb) (ord_of (installable va vb))).1 h
  obtain ⟨⟨nd, hn⟩, hp⟩ := this
  rcases i with _ | _ | _ | i
  · exact .inl ⟨rfl, hp.symm⟩
  · exact .inr (.inl ⟨rfl, hp.symm⟩)
  · exact .inr (.inr ⟨rfl, hp.symm⟩)
  · cases hn

/-- the disk after a first install of the tree -/
def after (va vb : Nat) : Disk Nat Nat := ((applyTree pk v (pair va vb) none_).getD (none_, ⟨fun _ => none, [], 0⟩)).1

theorem after_ok (va vb : Nat) : Installed pk (pair va vb) (after va vb).tree ∧ Recorded v (pair va vb) (after va vb).metaFile := by
  obtain ⟨r, h1, h2, h3⟩ := C33_fresh pk v (pair va vb) (installable va vb) none_ ⟨rfl, .inl fun _ => rfl⟩
  unfold after
  rw [h1]
  exact ⟨h2, h3⟩

def recorded11 : IMap Str (LNode Nat Nat) := ((after 1 1).metaFile).getD []
theorem meta11 : (after 1 1).metaFile = some recorded11 := by
  obtain ⟨_, rec, _, h, _⟩ := (after_ok 1 1).2
  simp [recorded11, h]

/-- upgrading the unscoped package is noticed -/
theorem noticed : Noticed pk v (pair 1 1) (pair 2 1) recorded11 := by
  intro n hn hc ρ c
  have hna : n ≠ ['a'] := by
    rintro rfl
    rcases hc with h | ⟨nd, i, ideal, act, h1, h2, h3, h4, h5⟩
    · exact absurd h (by decide)
    · cases h1
      have hi : i = 1 := by
        have : (some 1 : Option Nat) = some i := h2
        simpa using this.symm
      subst hi
      have e3 : lockNode v (pair 2 1) 1 false = some ideal := h3
      have : (recorded11.get? ['a']).map (fun a => (lockNode v (pair 2 1) 1 false).map fun b => a.eqv b) = some (some false) := by
        decide +kernel
      rw [h4, e3] at this
      simp only [Option.map_some, Option.some.injEq] at this
      rw [h5] at this; cases this
  constructor
  · rintro ⟨i, nd, hl, hi, rfl⟩
    rcases located 1 1 hl with ⟨_, h⟩ | ⟨_, h⟩ | ⟨rfl, h⟩
    · cases h
    · simp only [List.cons.injEq] at h; exact absurd h.1 hna
    · cases hi
      refine ⟨2, _, ?_, rfl, rfl⟩
      rw [h]
      exact .inside (nd := ⟨sb, 1, [], some 0, [], []⟩) (π := []) rfl rfl (.root rfl)
  · rintro ⟨i, nd, hl, hi, rfl⟩
    rcases located 2 1 hl with ⟨_, h⟩ | ⟨_, h⟩ | ⟨rfl, h⟩
    · cases h
    · simp only [List.cons.injEq] at h; exact absurd h.1 hna
    · cases hi
      refine ⟨2, _, ?_, rfl, rfl⟩
      rw [h]
      exact .inside (nd := ⟨sb, 1, [], some 0, [], []⟩) (π := []) rfl rfl (.root rfl)

/-- C33_partial applies to that upgrade -/
example : ∃ r, applyTree pk v (pair 2 1) (after 1 1) = some r ∧ Installed pk (pair 2 1) r.1.tree ∧
    r.1.tree [['a'], pj] = some (.file [2]) := by
  obtain ⟨r, h1, h2, _⟩ := C33_partial pk v _ _ (installable 1 1) (installable 2 1) (after 1 1) recorded11 (after_ok 1 1).1 meta11 noticed
  refine ⟨r, h1, h2, ?_⟩
  have : (applyTree pk v (pair 2 1) (after 1 1)).map (fun r => r.1.tree [['a'], pj]) = some (some (.file [2])) := by
    decide +kernel
  rw [h1] at this
  simpa using this

/-- a first install links the commands -/
example : (after 1 1).tree [binName, ['x']] = some (.link [['@', 's'], ['b'], pj]) ∧
    (after 1 1).tree [['a'], pj] = some (.file [1]) := by decide +kernel

end Ex

/-- C33 is false of the code: upgrading a scoped package leaves the old version in place (and records the new one). -/
theorem C33_fails : ∃ r, Installed Ex.pk (Ex.pair 1 1) (Ex.after 1 1).tree ∧
    Recorded Ex.v (Ex.pair 1 1) (Ex.after 1 1).metaFile ∧ Installable Ex.pk (Ex.pair 1 2) ∧
    applyTree Ex.pk Ex.v (Ex.pair 1 2) (Ex.after 1 1) = some r ∧ ¬ Installed Ex.pk (Ex.pair 1 2) r.1.tree ∧
    r.1.tree [['@', 's'], ['b'], Ex.pj] = some (.file [1]) := by
  have h : (applyTree Ex.pk Ex.v (Ex.pair 1 2) (Ex.after 1 1)).map (fun r => r.1.tree [['@', 's'], ['b'], Ex.pj]) =
      some (some (.file [1])) := by decide +kernel
  obtain ⟨r, h1, h2⟩ := Option.map_eq_some_iff.1 h
  refine ⟨r, (Ex.after_ok 1 1).1, (Ex.after_ok 1 1).2, Ex.installable 1 2, h1, ?_, h2⟩
  intro hi
  have hb : ¬ InBin [['@', 's'], ['b'], Ex.pj] := by
    rw [inBin_bad]
    simp only [bad_cons]
    rintro (⟨_, h⟩ | ⟨h, _⟩ | ⟨h, _⟩ | ⟨h, _⟩ | ⟨q, r, h⟩)
    · exact absurd h (by decide)
    · exact absurd h (by decide)
    · exact absurd h (by decide)
    · exact absurd h (by decide)
    · simp at h
  have h3 : r.1.tree [['@', 's'], ['b'], Ex.pj] = some (.file [2]) := (hi _ hb _).2 (.inl ⟨2, _, [Ex.sb], [Ex.pj], by decide, rfl,
    .inside (nd := ⟨Ex.sb, 2, [], some 0, [], []⟩) (π := []) rfl rfl (.root rfl), by decide, by decide⟩)
  rw [h2] at h3
  exact absurd h3 (by decide)

namespace Ex
/-- interrupted while upgrading `a` to version 2: its folder was made, its file was not written yet -/
def halfway : Disk Nat Nat :=
  ⟨fun p => if p = [['a']] then some .dir else (prune v (pair 2 1) (after 1 1)).tree p, (after 1 1).metaFile⟩
end Ex

/-- C34 is false of the code for another tree: interrupted while upgrading, going back to the tree that was installed
before leaves the half-extracted package. -/
theorem C34_fails : ∃ r, Installed Ex.pk (Ex.pair 1 1) (Ex.after 1 1).tree ∧
    Interrupted Ex.pk Ex.v (Ex.pair 2 1) (Ex.after 1 1) Ex.halfway ∧
    applyTree Ex.pk Ex.v (Ex.pair 1 1) Ex.halfway = some r ∧ ¬ Installed Ex.pk (Ex.pair 1 1) r.1.tree ∧
    r.1.tree [['a'], Ex.pj] = none := by
  have h : (applyTree Ex.pk Ex.v (Ex.pair 1 1) Ex.halfway).map (fun r => r.1.tree [['a'], Ex.pj]) = some none := by
    decide +kernel
  obtain ⟨r, h1, h2⟩ := Option.map_eq_some_iff.1 h
  have hx : (install Ex.pk Ex.v (Ex.pair 2 1) (Ex.after 1 1)).map (fun r => r.1.tree [['a']]) = some (some .dir) := by
    decide +kernel
  obtain ⟨q, hq1, hq2⟩ := Option.map_eq_some_iff.1 hx
  refine ⟨r, (Ex.after_ok 1 1).1, .extracting _ q hq1 ?_ ?_, h1, ?_, h2⟩
  · rw [prune_eq (actual := Ex.recorded11) (by decide +kernel) (by decide +kernel) Ex.meta11]
    exact Ex.meta11
  · intro p
    by_cases hp : p = [['a']]
    · right
      subst hp
      refine ⟨by decide +kernel, .inl ?_⟩
      rw [hq2]
      rfl
    · left
      simp [Ex.halfway, hp]
  · intro hi
    have hb : ¬ InBin [['a'], Ex.pj] := by
      rw [inBin_bad]
      simp only [bad_cons]
      rintro (⟨_, h⟩ | ⟨h, _⟩ | ⟨h, _⟩ | ⟨q, r, h⟩)
      · exact absurd h (by decide)
      · exact absurd h (by decide)
      · exact absurd h (by decide)
      · simp at h
    have h3 : r.1.tree [['a'], Ex.pj] = some (.file [1]) := (hi _ hb _).2 (.inl ⟨1, _, [['a']], [Ex.pj], by decide, rfl,
      .inside (nd := ⟨['a'], 1, [], some 0, [], []⟩) (π := []) rfl rfl (.root rfl), by decide, by decide⟩)
    rw [h2] at h3
    exact absurd h3 (by decide)

/-- the scripts that C34_scripts_fails loses -/
example : (install Ex.pk Ex.v (Ex.pair 1 1) Ex.none_).map (fun r => r.2.pending) = some [1, 2] := by decide +kernel

/-- C32: pruning for an upgrade of `a` removes it, and keeps the scoped package even if it is to be upgraded -/
example : (prune Ex.v (Ex.pair 2 2) (Ex.after 1 1)).tree [['a'], Ex.pj] = none ∧
    (prune Ex.v (Ex.pair 2 2) (Ex.after 1 1)).tree [['@', 's'], ['b'], Ex.pj] = some (.file [1]) := by decide +kernel

end Hoisted
end Oro
