import Verif.Proofs.Again
/- Proofs for C81, isolated linker: applying again changes nothing. -/

set_option linter.unusedSectionVars false

namespace Oro
namespace Iso
open Hoisted (Entry Tree Pkgs Disk storeName binName metaName wiped)
variable {P S V I : Type} [DecidableEq S] {pk : Pkgs P} {v : Env} {g : Graph Str P S}

/-- the commands are in the folders of the tree's packages and of the project -/
def OwnBins (v : Env) (g : Graph Str P S) (t : Tree) : Prop :=
  ∀ p e, InBin p → t p = some e → (∃ i, IsPkg g i) ∧ ∃ s r, Src g s ∧ p = nm v g s ++ binName :: r

/-- entries for dependencies are not on the way to commands -/
theorem bin_not_removedDep (hg : Installable pk v g) {s : Nat} (hs : Src g s) {t : Tree} {q r : Loc} (hq : q <+: nm v g s ++ binName :: r) :
    removedDep v g t q = false := by
  rw [Bool.eq_false_iff]
  intro h
  obtain ⟨i, j, hi, hj, h1, _⟩ := removedDep_iff.1 h
  have hi := (src_lt hg).1 hi
  obtain ⟨c, x, e1, e2, e3⟩ := segs_ne_bin hg (dep_pkg hg hj)
  subst h1
  unfold entryFor at hq
  rw [e1] at hq
  rcases hi with rfl | hi <;> rcases hs with rfl | hs
  · unfold nm at hq
    rw [if_pos rfl] at hq
    simp only [List.nil_append, List.cons_prefix_cons] at hq
    exact e2 hq.1
  · unfold nm at hq
    rw [if_pos rfl, if_neg hs.1] at hq
    unfold home at hq
    simp only [List.nil_append, List.cons_append, List.cons_prefix_cons] at hq
    exact e3 hq.1
  · unfold nm at hq
    rw [if_neg hi.1, if_pos rfl] at hq
    unfold home at hq
    simp only [List.nil_append, List.cons_append, List.cons_prefix_cons] at hq
    exact absurd hq.1 (by decide)
  · unfold nm at hq
    rw [if_neg hi.1, if_neg hs.1] at hq
    have := home_apart hg hi hs (x := home v g s ++ [nmWord] ++ binName :: r)
      ((show home v g i <+: home v g i ++ [nmWord] ++ c :: x by rw [List.append_assoc]; exact List.prefix_append _ _).trans hq)
      (by rw [List.append_assoc]; exact List.prefix_append _ _)
    subst this
    rw [List.prefix_append_right_inj, List.cons_prefix_cons] at hq
    exact e2 hq.1

theorem bin_not_removedStore (hg : Installable pk v g) {t : Tree} (ht : Installed pk v g t) {s : Nat} (hs : Src g s) {q r : Loc}
    (hq : q <+: nm v g s ++ binName :: r) : removedStore v g t q = false := by
  rcases hs with rfl | hs
  · unfold nm at hq
    rw [if_pos rfl, List.nil_append] at hq
    match q with
    | [] => rfl
    | [_] => rfl
    | [c, e] =>
      rw [List.cons_prefix_cons] at hq
      rw [hq.1]; simp [removedStore, storeName, binName]
    | [c, e, f] =>
      rw [List.cons_prefix_cons] at hq
      rw [hq.1]; simp [removedStore, storeName, binName]
    | c :: e :: f :: k :: q => rfl
  · unfold nm at hq
    rw [if_neg hs.1, List.append_assoc] at hq
    exact home_not_removedStore hg hs hq fun _ h => home_dir hg ht hs h

/-- Applying the tree that is installed: nothing is unpacked, and nothing changes, commands included. -/
theorem apply_again (hg : Installable pk v g) (d : Disk V I) (hd : Installed pk v g d.tree) (hm : d.metaFile ≠ none) (hb : OwnBins v g d.tree)
    (order : List Nat) (ho : Order g order) : ∃ y z, install pk v g order d = some y ∧ y.rebuild = [] ∧ y.bins = [] ∧
      apply pk v g order d = some z ∧ z.1 = d.tree := by
  obtain ⟨y, hy, hsame⟩ := C46_again pk v g hg d hd order ho
  have hx := exact_strip hg hd
  have hroot : d.tree [] = some .dir := (hd [] notBin_nil .dir).2 (.inl ⟨rfl, rfl⟩)
  -- nothing is new
  have hnew : ∀ i ∈ order, ∀ sel, isNew v g sel (prune v g (⟨strip d.tree, d.metaFile⟩ : Disk V I)) i = false := by
    intro i _ sel
    by_cases i0 : i = 0
    · simp [isNew, i0]
    cases hn : g.nodes[i]? with
    | none => simp [isNew, hn]
    | some nd =>
      have hi : IsPkg g i := ⟨i0, nd, hn⟩
      have ht : Installed pk v g (strip d.tree) := installed_of_exact hx
      have hu : Usable (⟨strip d.tree, d.metaFile⟩ : Disk V I) := by
        refine ⟨?_, hm, ?_⟩
        · show strip d.tree [] ≠ none
          rw [strip_of notBin_nil, hroot]; simp
        · show strip d.tree [storeName] ≠ none
          rw [home_dir hg ht hi (q := [storeName]) (by unfold home; simp [List.cons_prefix_cons])]
          simp
      have hk : prune v g (⟨strip d.tree, d.metaFile⟩ : Disk V I) (home v g i) = some .dir := by
        rw [prune_usable hu]
        rw [pruned_keeps]
        · exact home_dir hg ht hi (List.prefix_refl _)
        · intro q hq
          have hq' : q <+: nm v g i ++ binName :: [] := by
            unfold nm
            rw [if_neg i0]
            rw [List.append_assoc]
            exact hq.trans (List.prefix_append _ _)
          exact ⟨bin_not_removedDep hg (.inr hi) hq', bin_not_removedStore hg ht (.inr hi) hq'⟩
      simp [isNew, hk]
  have hlists : ∃ y', install pk v g order (⟨strip d.tree, d.metaFile⟩ : Disk V I) = some y' ∧ y'.rebuild = [] ∧ y'.bins = [] := by
    by_cases hst : (∃ i, IsPkg g i)
    · obtain ⟨i, hi⟩ := hst
      have ht : Installed pk v g (strip d.tree) := installed_of_exact hx
      have hu : Usable (⟨strip d.tree, d.metaFile⟩ : Disk V I) := by
        refine ⟨?_, hm, ?_⟩
        · show strip d.tree [] ≠ none
          rw [strip_of notBin_nil, hroot]; simp
        · show strip d.tree [storeName] ≠ none
          rw [home_dir hg ht hi (q := [storeName]) (by unfold home; simp [List.cons_prefix_cons])]
          simp
      obtain ⟨y', h1, _, h3, h4⟩ := extract_all (pruned_base hg hg (compatible_self pk v g hg) hx) ho
      rw [prune_usable hu] at hnew
      refine ⟨y', by unfold install; rw [prune_usable hu]; exact h1, ?_, ?_⟩
      · rw [h3, List.filter_eq_nil_iff]
        intro i hi
        rw [show isNew v g pk.scripts (pruned v g (strip d.tree)) i = false from hnew i hi _]; simp
      · rw [h4, List.filter_eq_nil_iff]
        intro i hi
        rw [show isNew v g _ (pruned v g (strip d.tree)) i = false from hnew i hi _]; simp
    · have hw : prune v g (⟨strip d.tree, d.metaFile⟩ : Disk V I) = wiped := by
        have hs : strip d.tree [storeName] = none := by
          cases h : strip d.tree [storeName] with
          | none => rfl
          | some e =>
            exfalso
            rw [hx] at h
            rcases h with ⟨h, _⟩ | ⟨i, nd, i0, hn, _⟩ | ⟨a, ha, _⟩
            · cases h
            · exact hst ⟨i, i0, nd, hn⟩
            · exact hst ⟨a.dst, hg.known a ha⟩
        unfold prune
        dsimp only
        rw [if_neg (by rw [strip_of notBin_nil, hroot]; simp), if_pos (by simp [hs])]
      obtain ⟨y', h1, _, h3, h4⟩ := extract_all (wiped_base hg) ho
      rw [hw] at hnew
      refine ⟨y', by unfold install; rw [hw]; exact h1, ?_, ?_⟩
      · rw [h3, List.filter_eq_nil_iff]
        intro i hi
        rw [hnew i hi]; simp
      · rw [h4, List.filter_eq_nil_iff]
        intro i hi
        rw [hnew i hi]; simp
  obtain ⟨y', hy', l1, l2⟩ := hlists
  rcases install_rel (d := d) (d' := ⟨strip d.tree, d.metaFile⟩) hg ho rfl (rel_strip _) (good_exact hg (installed_of_exact hx)) with ⟨h, _⟩ | ⟨a, b', e1, e2, ⟨_, r5, r6⟩⟩
  · rw [hy] at h; cases h
  rw [hy] at e1
  rw [hy'] at e2
  cases e1
  cases e2
  refine ⟨y, (y.tree, y.cache), hy, r5.trans l1, r6.trans l2, ?_, ?_⟩
  · unfold apply
    rw [hy, Option.bind_some, r6, l2]
    rfl
  · funext p
    show y.tree p = d.tree p
    by_cases hp : InBin p
    · unfold install at hy
      rw [keeps_extract hg ho hy p hp]
      cases he : d.tree p with
      | none =>
        unfold prune
        split
        · exact he
        · split
          · unfold wiped
            rw [if_neg]
            rintro rfl
            exact notBin_nil hp
          · unfold pruned
            split
            · rfl
            · exact he
      | some e =>
        obtain ⟨⟨i, hi⟩, s, r, hs, rfl⟩ := hb p e hp he
        have hu : Usable d := by
          refine ⟨by rw [hroot]; simp, hm, ?_⟩
          rw [home_dir hg hd hi (q := [storeName]) (by unfold home; simp [List.cons_prefix_cons])]
          simp
        rw [prune_usable hu, pruned_keeps, he]
        intro q hq
        exact ⟨bin_not_removedDep hg hs hq, bin_not_removedStore hg hd hs hq⟩
    · exact hsame p hp

/-- after a first install the commands are in the folders of the tree's packages and of the project -/
theorem fresh_bins (hg : Installable pk v g) (hp : PlainCommands pk g) (d : Disk V I) (hd : Fresh d) (order : List Nat) (ho : Order g order)
    (z : Tree × List Loc) (hz : apply pk v g order d = some z) : Installed pk v g z.1 ∧ OwnBins v g z.1 := by
  obtain ⟨z', done, hz', hL, _⟩ := apply_fresh pk v g hg hp d hd order ho
  rw [hz] at hz'
  cases hz'
  refine ⟨hL.inst, ?_⟩
  intro p e hb he
  refine ⟨?_, ?_⟩
  · by_cases hst : ∃ i, IsPkg g i
    · exact hst
    · exfalso
      obtain ⟨y, hy, hi⟩ := C46_fresh pk v g hg d hd order ho
      have hw := fresh_wiped pk v g d hd order
      obtain ⟨y', hy', _, _, hbins⟩ := extract_all (wiped_base hg) ho
      rw [hw, hy'] at hy
      cases hy
      have hbn : y.bins = [] := by
        rw [hbins, List.filter_eq_nil_iff]
        intro i _
        by_cases i0 : i = 0
        · simp [isNew, i0]
        · cases hn : g.nodes[i]? with
          | none => simp [isNew, hn]
          | some nd => exact absurd ⟨i, i0, nd, hn⟩ hst
      have : z = (y.tree, y.cache) := by
        unfold apply at hz
        rw [hw, hy', Option.bind_some, hbn] at hz
        exact (Option.some.inj hz).symm
      subst this
      exact expected_notBin hg ((hi p e).1 he) hb
  · obtain ⟨s, hs, ⟨h, _⟩ | ⟨b, x, h, _⟩⟩ := hL.only p e hb he
    · exact ⟨s, [], hs, h⟩
    · exact ⟨s, [b], hs, h⟩

end Iso
end Oro
