import Verif.Props.Tried
import Verif.Props.OfflineLifeEx
/-
C98: examples.
-/

set_option linter.unusedSectionVars false

namespace Oro
namespace Hoisted
namespace ExK
open ExI

/-- a first install over half a package, interrupted at any moment, and again -/
example (m : Nat) : ∃ w, applyRun ExT.env build v g o fetch none ((List.range m).map s) ExF.half = some w ∧
    ∀ m', ∃ w', applyRun ExT.env build v g o fetch none ((List.range m').map s) w.runs.fs = some w' ∧
      GoesWell ExT.env build id pk v g o fetch none w'.runs.fs := by
  obtain ⟨w, hw⟩ := (C98_first ExT.ord_perm noCol half_machine clear goods .not).begins ((List.range m).map s)
  have h1 := TriedAnew.moment (.not) (turns m) hw
  refine ⟨w, hw, fun m' => ?_⟩
  obtain ⟨w', hw'⟩ := (C98_first ExT.ord_perm noCol half_machine clear goods h1).begins ((List.range m').map s)
  exact ⟨w', hw', C98_first ExT.ord_perm noCol half_machine clear goods (.moment h1 (turns m') hw')⟩

theorem kept1 : ∃ fs, Kept ExT.env build id pk v o fetch (fun b => [b]) g fs lock ∧ Tar.InCache ExT.env (ExT.n 6) fs := by
  obtain ⟨hA, M, hM⟩ := C96_first ExT.ord_perm noCol half_machine clear goods s turns fair
  obtain ⟨w, hw, _⟩ := hA M
  obtain ⟨l, hl⟩ := Option.isSome_iff_exists.1 (show (toLockfile v g).isSome = true by decide +kernel)
  exact ⟨w.runs.fs, .first half_machine clear goods (turns M) hw (hM M (Nat.le_refl _) w hw) (by rw [← lock_eq hl]; exact recorded_self hl),
    (C97_first ExT.ord_perm noCol half_machine clear goods rfl (turns M) hw).2 _
      ⟨⟨false, [], Tar.listing ExT.env (ExT.env.untar [6]).1 []⟩, by simp [ExF.half, ExF.fs, fs, Tar.ExR.fsC], Tar.ExR.fsC_stocked⟩⟩

/-- `a` is upgraded; that is interrupted at any moment, and then once more; the third time it comes to its end, and the project goes on -/
example : ∃ fs, Kept ExT.env build id pk v o fetch (fun b => [b]) g fs lock ∧
    ∀ m m', ∃ w w' w'' rec2, applyRun ExT.env build v g2 o fetch (some lock) ((List.range m).map s) fs = some w ∧
      applyRun ExT.env build v g2 o fetch (some lock) ((List.range m').map s) w.runs.fs = some w' ∧
      ∃ m'', applyRun ExT.env build v g2 o fetch (some lock) ((List.range m'').map s) w'.runs.fs = some w'' ∧
        Kept ExT.env build id pk v o fetch (fun b => [b]) g2 w''.runs.fs rec2 := by
  obtain ⟨fs, hk, hin⟩ := kept1
  have hg0 := goods2 hin
  refine ⟨fs, hk, fun m m' => ?_⟩
  obtain ⟨w, hw⟩ := (C98_next_partial ExT.ord_perm noCol hk noticed2 .not hg0).begins ((List.range m).map s)
  have hg1 := (C98_goods_partial ExT.ord_perm noCol hk noticed2 .not hg0).2 _ w (turns_any _ m) hw
  have ht1 := Tried.moment .not hg0 (turns_any _ m) hw
  obtain ⟨w', hw'⟩ := (C98_next_partial ExT.ord_perm noCol hk noticed2 ht1 hg1).begins ((List.range m').map s)
  have hg2 := (C98_goods_partial ExT.ord_perm noCol hk noticed2 ht1 hg1).2 _ w' (turns_any _ m') hw'
  have ht2 := Tried.moment ht1 hg1 (turns_any _ m') hw'
  have hwell := C98_next_partial ExT.ord_perm noCol hk noticed2 ht2 hg2
  obtain ⟨M, hM⟩ := hwell.ends s (turns_any _) (fun i nd h0 hi N => by
    have : i < 4 := by rcases nodes2 h0 hi with ⟨h, _⟩ | ⟨h, _⟩ <;> omega
    exact ⟨4 * N + i, by omega, by unfold s; omega⟩)
  obtain ⟨w'', hw''⟩ := hwell.begins ((List.range M).map s)
  obtain ⟨l2, hl2⟩ := Option.isSome_iff_exists.1 (show (toLockfile v g2).isSome = true by decide +kernel)
  exact ⟨w, w', w'', l2.packages, hw, hw', M, hw'', .next hk noticed2 ht2 hg2 (turns_any _ M) hw'' (hM M (Nat.le_refl _) w'' hw'') (recorded_self hl2)⟩

/-- pruning may be interrupted at its end, before extraction begins -/
example {fs : Tar.FS} (h : Tar.Proper fs) : PartlyPruned v g2 o.root (some lock) fs (pruneFS v g2 o.root (some lock) fs) where
  proper := proper_prune h
  files p := by
    show (if _ then _ else _) = _ ∨ _ ∧ (if _ then _ else _) = _
    split
    · rename_i hx; exact .inr ⟨hx, rfl⟩
    · exact .inl rfl
  dirs p := by
    show (!_ && _) = _ ∨ _ ∧ (!_ && _) = _
    cases hx : removed v g2 o.root (some lock) fs p <;> simp
  content := rfl
  store := rfl
  index := rfl
  next := rfl

/-- a `reapply` interrupted when it has removed the manifest of `a`: installing does not put it back -/
theorem cleared_ex : ∃ fs, Kept ExT.env build id pk v o fetch (fun b => [b]) g fs lock ∧ Installed pk g (seen id o.root fs) ∧
    (∃ c, seen id o.root fs [['a'], Tar.kPackageJson] = some (.file c)) ∧
    ∀ sched, ∃ w, applyRun ExT.env build v g o fetch (some lock) sched
      { fs with files := fun q => if q = o.root ++ nmWord :: [['a'], Tar.kPackageJson] then none else fs.files q } = some w ∧
      seen id o.root w.runs.fs [['a'], Tar.kPackageJson] = none := by
  obtain ⟨fs, hk, _⟩ := kept1
  have hi := (C96_kept ExT.ord_perm noCol hk).2.1
  have hb : ¬ InBin [['a'], Tar.kPackageJson] := by
    rintro ⟨q, r, h, _⟩
    have : binName ∈ [['a'], Tar.kPackageJson] := by rw [h]; simp
    revert this
    decide +kernel
  have hp : ∃ c, seen id o.root fs [['a'], Tar.kPackageJson] = some (.file c) := by
    have hc : ∃ c, pk.content 2 [Tar.kPackageJson] = some (.file c) := ⟨_, rfl⟩
    obtain ⟨c, hc⟩ := hc
    refine ⟨c, (hi _ hb _).2 (.inl ⟨1, _, [['a']], [Tar.kPackageJson], by decide, rfl, ?_, by decide +kernel, hc⟩)⟩
    exact .inside (nd := ⟨['a'], 2, [], some 0, [(ExI.c, 3)], []⟩) (π := []) rfl rfl (.root rfl)
  obtain ⟨c, hc⟩ := hp
  refine ⟨fs, hk, hi, ⟨c, hc⟩, fun sched => ?_⟩
  obtain ⟨w, h1, _, h2⟩ := C98_cleared_fails ExT.ord_perm noCol hk hb hc sched
  exact ⟨w, h1, h2⟩

/-- over half a package -/
example : GoesWell ExT.env build id pk v g o fetch none (clearedFS o.root ExF.half) := C98_reapply ExT.ord_perm noCol half_machine clear goods

/-- a meta file of which nothing can be read -/
example : ∃ fs, Kept ExT.env build id pk v o fetch (fun b => [b]) g fs lock ∧ GoesWell ExT.env build id pk v g o fetch none fs := by
  obtain ⟨hA, M, hM⟩ := C96_first ExT.ord_perm noCol half_machine clear goods s turns fair
  obtain ⟨w, hw, _⟩ := hA M
  obtain ⟨l, hl⟩ := Option.isSome_iff_exists.1 (show (toLockfile v g).isSome = true by decide +kernel)
  have hk : Kept ExT.env build id pk v o fetch (fun b => [b]) g w.runs.fs lock :=
    .first half_machine clear goods (turns M) hw (hM M (Nat.le_refl _) w hw) (by rw [← lock_eq hl]; exact recorded_self hl)
  exact ⟨_, hk, C98_meta ExT.ord_perm noCol hk none (anew_again ExT.ord_perm noCol half_machine clear goods (.moment .not (turns M) hw)).2.2⟩

end ExK
end Hoisted
end Oro
