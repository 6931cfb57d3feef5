import Verif.Props.BinLife
import Verif.Props.LinkEnds
/-
C99, C35: a first install, from the tarballs to commands that can be executed (hoisted linker).
-/

set_option linter.unusedSectionVars false

namespace Oro
namespace Hoisted
variable {P S V I : Type} [DecidableEq S] [DecidableEq V] [DecidableEq I]
variable {env : Tar.Env} {build : Bytes → Option Bool} {pr : Bytes → Bytes} {pk : Pkgs P} {v : LockView P S V I} {o : XOpts}
  {fetch : P → Option Tar.Integrity × Option (List Tar.Ev)} {tar : P → Bytes} {g : Graph Str P S} {fs : Tar.FS}

/-- no package brings a folder for commands -/
theorem not_expected_bin (hg : Installable pk g) {j : Nat} {nd : Node Str P S} (j0 : j ≠ 0) (hj : g.nodes[j]? = some nd) {e : Entry} :
    ¬ Expected pk g (binDir (targetDir g j)) e := by
  obtain ⟨σ, hl, hb⟩ := pkg_bin hg j0 hj
  have hin : InBin (binDir (targetDir g j)) := by simpa using bin_in hg j0 hj []
  rintro (⟨i, nd', π, r, i0, hi, hl', hp, hc⟩ | ⟨_, hp | ⟨i, π, _, hl', hp⟩⟩)
  · rw [hb] at hp
    have hhead := content_head hg i0 hi hc
    rcases List.append_eq_append_iff.1 hp with ⟨a, h1, h2⟩ | ⟨a, h1, h2⟩
    · cases a with
      | nil =>
        rw [List.nil_append] at h2
        rw [← h2] at hhead
        simp at hhead
      | cons z a =>
        simp only [List.cons_append, List.cons.injEq] at h2
        obtain ⟨rfl, h2⟩ := h2
        cases a with
        | nil =>
          rw [List.nil_append] at h2
          have h3 : folder π ++ [binName] = folder σ ++ [nmWord, binName] := by rw [h1]; simp
          have h4 : ∀ m ∈ σ, FolderName m := fun m hm => located_names hg hl m (by simp [hm])
          obtain ⟨τ, hτ, hy⟩ := folder_prefix (y := [nmWord]) h4 (located_names hg hl') h1.symm
          cases τ with
          | nil => simp [folder] at hy
          | cons m τ =>
            rw [folder_cons] at hy
            have := segs_ne_nil (located_names hg hl' m (by rw [hτ]; simp))
            simp only [List.cons.injEq, true_and] at hy
            exact this (List.append_eq_nil_iff.1 hy.symm).1
        | cons z a =>
          simp only [List.cons_append, List.cons.injEq] at h2
          obtain ⟨rfl, h2⟩ := h2
          exact not_bad_folder (located_inst hg hl') ⟨folder σ, a, h1⟩
    · obtain ⟨τ, hτ, hy⟩ := folder_prefix (y := a) (located_names hg hl') (fun m hm => located_names hg hl m (by simp [hm])) h1.symm
      rw [h2] at hhead
      cases τ with
      | nil => rw [hy] at hhead; simp [folder] at hhead
      | cons m τ => rw [hy, folder_cons] at hhead; simp at hhead
  · exact nil_ne_bin _ hp
  · exact not_inBin_way (located_inst hg hl') hp hin

/-- before the first package is extracted, node_modules is empty -/
theorem first_empty (hm : Machine env fs) (hno : ∀ q, q <+: o.root ++ [nmWord] → fs.files q = none) {c : List Loc} {fs' : Tar.FS}
    (h : Tar.mkdirp [] (pruneFS v g o.root none fs) (o.root ++ [nmWord]) = some (c, fs')) {r : Loc} (hr : r ≠ []) : seen pr o.root fs' r = none := by
  have hno' : ∀ q, q <+: o.root ++ [nmWord] → (pruneFS v g o.root none fs).files q = none := by
    intro q hq
    simp only [pruneFS, hno q hq]
    split <;> rfl
  obtain ⟨c', fs1, hmk, hp, hd, rfl⟩ := mkdirp_modules (proper_prune (v := v) (g := g) (recorded := none) hm.proper) hno'
  rw [h] at hmk
  cases hmk
  rw [seen_taken]
  have h1 := wiped_prune (v := v) (g := g) (o := o) hm.proper hr
  unfold Tar.FS.taken at h1 ⊢
  rw [Bool.or_eq_false_iff] at h1
  simp only [h1.1, h1.2, Bool.false_or]
  by_contra hc
  rw [Bool.not_eq_false, List.contains_iff_mem, List.mem_inits] at hc
  rw [List.prefix_append_right_inj] at hc
  exact hr (by simpa using hc)

/-- after a first install there are no folders for commands yet -/
theorem first_no_bins (ho : ∀ f, (env.ord f).Perm f) (hcol : Tar.NoCol env) (hm : Machine env fs) (hno : ∀ q, q <+: o.root ++ [nmWord] → fs.files q = none)
    (hg : Goods env build pr pk v g o fetch tar none fs) {sched : List Nat} (hord : ListOrder (jobsFor o g fetch) sched) {w : XRun}
    (hw : applyRun env build v g o fetch none sched fs = some w) (hov : Over g w) {j : Nat} {nd : Node Str P S} (j0 : j ≠ 0) (hj : g.nodes[j]? = some nd) :
    Installed pk g (seen pr o.root w.runs.fs) ∧ Machine env w.runs.fs ∧ seen pr o.root w.runs.fs (binDir (targetDir g j)) = none := by
  obtain ⟨c, fs', hmk, hs, hh, hf⟩ := first_further hm hno hg
  have hempty : seen pr o.root fs' (binDir (targetDir g j)) = none := first_empty hm hno hmk (nil_ne_bin _)
  unfold applyRun at hw
  rw [hmk] at hw
  cases hw
  obtain ⟨h1, h2⟩ := further_leaves ho hcol hs hh hf hord hov
  refine ⟨h1, h2, ?_⟩
  have hx := furtherinv_run ho hcol hs hh hf sched hord
  have key : ∀ i j, absent (jobsFor o g fetch) fs' i = some j →
      ∃ x, ((XRun.init fs').run env build (jobsFor o g fetch) sched).runs.pcs i = .done x := by
    intro i j hj
    obtain ⟨h0, nd, hi, _, _⟩ := jobsFor_some (tar := tar) (absent_some.1 hj).1
    have hjs : (jobsFor o g fetch i).isSome := by rw [(absent_some.1 hj).1]; rfl
    by_cases hin : i ∈ sched
    · rcases hx.begun i j hj hin with hp | hp
      · rcases hov i nd h0 hi with hb | ⟨b, hb⟩ <;> (rw [hb] at hp; cases hp)
      · exact hp.2
    · have hp := hx.waiting i hjs hin
      rcases hov i nd h0 hi with hb | ⟨b, hb⟩ <;> (rw [hb] at hp; cases hp)
  cases he : seen pr o.root ((XRun.init fs').run env build (jobsFor o g fetch) sched).runs.fs (binDir (targetDir g j)) with
  | none => rfl
  | some e =>
    exfalso
    rw [hx.runs] at he
    rcases (further_either ho hcol hs hh hf sched (fun n j hj => by
      have := key n j hj
      rw [hx.runs] at this
      exact this) _).2 e he with h3 | h3
    · rw [hempty] at h3; cases h3
    · exact not_expected_bin hf.tree j0 hj h3

/-- C99, C35: a first install, with one package linked at a time. Whatever the order of the accesses of the packages extracted concurrently:
once they are all extracted, linking never fails, can always be brought to its end, and then every command that a package declares (and
whose file is in the package) is linked to a file that is there and that everybody can read and execute (or to a folder). -/
theorem C99_first (ho : ∀ f, (env.ord f).Perm f) (hcol : Tar.NoCol env) (hm : Machine env fs) (hno : ∀ q, q <+: o.root ++ [nmWord] → fs.files q = none)
    (hg : Goods env build pr pk v g o fetch tar none fs) {sched : List Nat} (hord : ListOrder (jobsFor o g fetch) sched) {w : XRun}
    (hw : applyRun env build v g o fetch none sched fs = some w) (hov : Over g w)
    (hnest : ∀ (i : Nat) (nd : Node Str P S), g.nodes[i]? = some nd → ∀ b ∈ pk.bins nd.pkg, nmWord ∉ b.2) (hsome : ∃ j nd, j ≠ 0 ∧ g.nodes[j]? = some nd)
    (order : List Nat) {x : BinRun} (hx : BReach pk 1 o.root g order (seen pr o.root w.runs.fs) w.runs.fs x) :
    (∀ ev, bstep pk 1 o.root g x ev ≠ some none) ∧ (∃ evs y, lrun pk 1 g x.links evs = some (some y) ∧ y.done = true) ∧
    (x.links.done = true → ∀ (i : Nat) (nd : Node Str P S) (σ : List Str) (n b : Str) (f : Loc), i ∈ order → g.nodes[i]? = some nd →
      LocatedAt g i (σ ++ [n]) → (b, f) ∈ pk.bins nd.pkg → pk.content nd.pkg f ≠ none →
      ∃ (j : Nat) (nj : Node Str P S) (n' : Str) (f' p q : Loc), g.nodes[j]? = some nj ∧ LocatedAt g j (σ ++ [n']) ∧ (b, f') ∈ pk.bins nj.pkg ∧
        nmWord :: p = folder σ ++ [nmWord, binName, b] ∧ nmWord :: q = folder (σ ++ [n']) ++ f' ∧ x.links.tree p = some (.link q) ∧
        (pk.content nj.pkg f' ≠ none → Tar.Bits x.fs (o.root ++ nmWord :: q) 0o755 ∨ x.fs.dirs (o.root ++ nmWord :: q) = true)) := by
  have hb := fun {j : Nat} {nd : Node Str P S} => first_no_bins (j := j) (nd := nd) ho hcol hm hno hg hord hw hov
  obtain ⟨j, nd, j0, hj⟩ := hsome
  obtain ⟨hi, hM, _⟩ := hb j0 hj
  have never : ∀ {y : LRun}, LReach pk 1 g order (seen pr o.root w.runs.fs) y → ∀ ev, lstep pk 1 g y ev ≠ some none := by
    intro y hy ev hs
    obtain ⟨h1, h2⟩ := lalone hg.tree hi (fun j nd j0 hj => (hb j0 hj).2.2) hy
    obtain ⟨_, e, _⟩ := lalone_step hg.tree hi h1 h2 hs
    cases e
  refine ⟨fun ev hs => ?_, ?_, fun hd i nd σ n b f hio hi' hl hb' hc => ?_⟩
  · unfold bstep at hs
    obtain ⟨r, hr, hr'⟩ := Option.map_eq_some_iff.1 hs
    cases r with
    | none => exact never hx.links ev hr
    | some y => cases hr'
  · obtain ⟨evs, he | ⟨y, hy⟩⟩ := (C35_ends pk 1 g order (seen pr o.root w.runs.fs)).2 _ hx.links
    · obtain ⟨y, ev, h1, h2⟩ := lreach_fails evs hx.links he
      exact absurd h2 (never h1 ev)
    · exact ⟨evs, y, hy⟩
  · refine commands_of hg.tree hi hM.proper sight_seen (fun p q h => ?_) hx hd hnest i nd σ n b f hio hi' hl hb' hc
    have := sight_seen.files (pr := pr) (root := o.root) (fs := w.runs.fs) p
    rw [h] at this
    cases this

end Hoisted
end Oro
