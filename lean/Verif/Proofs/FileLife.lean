import Verif.Proofs.Proper
import Verif.Props.FurtherPruned
import Verif.Spec.FileLife
/-
Pruning on the file system, and installs on top of it.
-/

set_option linter.unusedSectionVars false

namespace Oro
namespace Hoisted
variable {P S V I : Type} [DecidableEq S] [DecidableEq V] [DecidableEq I]
variable {v : LockView P S V I} {g : Graph Str P S} {root : Loc} {recorded : Option (IMap Str (LNode V I))} {fs : Tar.FS}

theorem below_eq {d p r : Loc} : below d p = some r ↔ p = d ++ r := by
  unfold below
  split
  · rename_i h
    obtain ⟨x, rfl⟩ := List.isPrefixOf_iff_prefix.1 h
    simp [eq_comm]
  · rename_i h
    refine ⟨fun hx => (by cases hx), ?_⟩
    rintro rfl
    exact absurd (List.isPrefixOf_iff_prefix.2 (List.prefix_append _ _)) h

theorem survives_up {actual : IMap Str (LNode V I)} (a : Loc) : ∀ pre b, survives v g actual pre (a ++ b) = true → survives v g actual pre a = true := by
  induction a with
  | nil => intro pre b _; unfold survives; rfl
  | cons s a ih =>
    intro pre b h
    rw [List.cons_append] at h
    unfold survives at h ⊢
    split at h
    · rfl
    · exact ih _ _ h
    · cases h

theorem removed_below {p : Loc} (h : removed v g root recorded fs p = true) : ∃ r, p = root ++ [nmWord] ++ r ∧
    (prune v g ⟨seen id root fs, recorded⟩).tree r = none := by
  unfold removed at h
  split at h
  · rename_i r hr
    exact ⟨r, below_eq.1 hr, by simpa using h⟩
  · cases h

theorem removed_at {r : Loc} : removed v g root recorded fs (root ++ nmWord :: r) = ((prune v g ⟨seen id root fs, recorded⟩).tree r).isNone := by
  unfold removed
  rw [below_eq.2 (show root ++ nmWord :: r = root ++ [nmWord] ++ r by simp)]

theorem taken_up (hp : Tar.Proper fs) {d q : Loc} (h : fs.taken d = true) (hq : q <+: d) : q = d ∨ fs.dirs q = true := by
  by_cases he : q = d
  · exact .inl he
  · right
    unfold Tar.FS.taken at h
    rcases Bool.or_eq_true_iff.1 h with h | h
    · exact hp.closed _ (hp.housed d (Option.isSome_iff_ne_none.1 h)) q (Tar.prefix_dropLast hq he)
    · exact hp.closed d h q hq

/-- what is in a folder that is removed is removed -/
theorem removed_up (hp : Tar.Proper fs) {q d : Loc} (h : removed v g root recorded fs q = true) (hq : q <+: d) (ht : fs.taken d = true) :
    removed v g root recorded fs d = true := by
  obtain ⟨r, rfl, hr⟩ := removed_below h
  obtain ⟨y, rfl⟩ := hq
  have hnm : seen id root fs [] ≠ none := by
    intro hx
    rw [seen_taken (o := ⟨root, false, false, false, false⟩)] at hx
    rcases taken_up hp ht (q := root ++ [nmWord]) (by rw [List.append_assoc]; exact List.prefix_append _ _) with he | hd
    · rw [← he] at ht; rw [ht] at hx; cases hx
    · unfold Tar.FS.taken at hx; rw [hd] at hx; simp at hx
  rw [show root ++ [nmWord] ++ r ++ y = root ++ nmWord :: (r ++ y) by simp, removed_at]
  unfold prune at hr ⊢
  simp only [if_neg hnm] at hr ⊢
  cases recorded with
  | none =>
    simp only [wiped] at hr ⊢
    split at hr
    · cases hr
    · rename_i hne
      rw [if_neg (by simp [hne])]; rfl
  | some actual =>
    simp only at hr ⊢
    split at hr
    · rename_i hs
      rw [if_pos hs]
      simp only [wiped] at hr ⊢
      split at hr
      · cases hr
      · rename_i hne
        rw [if_neg (by simp [hne])]; rfl
    · rename_i hs
      rw [if_neg hs]
      simp only at hr ⊢
      split at hr
      · -- it was not there
        rename_i hsv
        exfalso
        rw [seen_taken (o := ⟨root, false, false, false, false⟩)] at hr
        dsimp only at hr
        rcases taken_up hp ht (q := root ++ [nmWord] ++ r) (List.prefix_append _ _) with he | hd
        · rw [← he, show root ++ [nmWord] ++ r = root ++ nmWord :: r by simp] at ht
          rw [ht] at hr; cases hr
        · rw [show root ++ [nmWord] ++ r = root ++ nmWord :: r by simp] at hd
          unfold Tar.FS.taken at hr; rw [hd] at hr; simp at hr
      · rename_i hsv
        rw [if_neg (fun h => hsv (survives_up r [] y h))]; rfl

theorem proper_prune (hp : Tar.Proper fs) : Tar.Proper (pruneFS v g root recorded fs) := by
  have keep : ∀ {q d}, removed v g root recorded fs d = false → q <+: d → fs.taken d = true → removed v g root recorded fs q = false := by
    intro q d h hq ht
    by_contra hc
    rw [Bool.not_eq_false] at hc
    rw [removed_up hp hc hq ht] at h; cases h
  have dir : ∀ {d}, (pruneFS v g root recorded fs).dirs d = true → removed v g root recorded fs d = false ∧ fs.dirs d = true := by
    intro d h
    simpa [pruneFS] using h
  have file : ∀ {p}, (pruneFS v g root recorded fs).files p ≠ none → removed v g root recorded fs p = false ∧ fs.files p ≠ none := by
    intro p h
    simp only [pruneFS] at h
    split at h
    · exact absurd rfl h
    · rename_i hn; exact ⟨by simpa using hn, h⟩
  have mk : ∀ {d}, removed v g root recorded fs d = false → fs.dirs d = true → (pruneFS v g root recorded fs).dirs d = true := by
    intro d h1 h2
    simp [pruneFS, h1, h2]
  refine ⟨fun d hd q hq => ?_, fun p h => ?_, fun p h => ?_⟩
  · obtain ⟨h1, h2⟩ := dir hd
    exact mk (keep h1 hq (by unfold Tar.FS.taken; rw [h2]; simp)) (hp.closed d h2 q hq)
  · obtain ⟨h1, h2⟩ := file h
    exact mk (keep h1 (List.dropLast_prefix _) (by unfold Tar.FS.taken; rw [Option.isSome_iff_ne_none.2 h2]; simp)) (hp.housed p h2)
  · obtain ⟨h1, h2⟩ := file h
    simp [pruneFS, hp.apart p h2]

/-- what one sees after pruning is what pruning leaves -/
theorem seen_prune {pr : Bytes → Bytes} (hr : seen pr root fs [] ≠ none) {actual : IMap Str (LNode V I)} (hs : seen pr root fs [storeName] = none) (p : Loc) :
    seen pr root (pruneFS v g root (some actual) fs) p = (prune v g ⟨seen pr root fs, some actual⟩).tree p := by
  have same : ∀ q, seen id root fs q = none ↔ seen pr root fs q = none := fun q => by
    rw [seen_taken (o := ⟨root, false, false, false, false⟩), seen_taken (o := ⟨root, false, false, false, false⟩)]
  rw [prune_eq hr hs rfl]
  have h1 : removed v g root (some actual) fs (root ++ nmWord :: p) = (prunedTree v g actual (seen id root fs) p).isNone := by
    rw [removed_at, prune_eq (d := ⟨seen id root fs, some actual⟩) (fun h => hr ((same _).1 h)) ((same _).2 hs) rfl]
  show _ = prunedTree v g actual (seen pr root fs) p
  unfold prunedTree at h1 ⊢
  unfold seen at h1 ⊢
  cases hsv : survives v g actual [] p <;> cases hf : fs.files (root ++ nmWord :: p) <;> cases hd : fs.dirs (root ++ nmWord :: p) <;>
    simp [hsv, hf, hd] at h1 <;> simp [pruneFS, h1, hf, hd]

theorem inits_dirs (hp : Tar.Proper fs) {p : Loc} (h : fs.dirs p = true) (q : Loc) : (fs.dirs q || p.inits.contains q) = fs.dirs q := by
  cases hq : fs.dirs q with
  | true => rfl
  | false =>
    by_contra hc
    have : q <+: p := by simpa using hc
    rw [hp.closed p h q this] at hq; cases hq

/-- making node_modules -/
theorem mkdirp_modules {fs : Tar.FS} (hp : Tar.Proper fs) (hno : ∀ q, q <+: root ++ [nmWord] → fs.files q = none) :
    ∃ c fs', Tar.mkdirp [] fs (root ++ [nmWord]) = some (c, fs') ∧ Tar.Proper fs' ∧ fs'.dirs (root ++ [nmWord]) = true ∧
      fs' = { fs with dirs := fun q => fs.dirs q || (root ++ [nmWord]).inits.contains q } := by
  have hmk : Tar.mkdirp [] fs (root ++ [nmWord]) = some ((root ++ [nmWord]).inits ++ [],
      { fs with dirs := fun q => fs.dirs q || (root ++ [nmWord]).inits.contains q }) := by
    unfold Tar.mkdirp Tar.createDirAll
    rw [if_neg (by simp), if_neg (by simp), if_neg]
    · rfl
    · intro h
      obtain ⟨q, hq, hs⟩ := List.any_eq_true.1 h
      rw [hno q ((List.mem_inits _ _).1 hq)] at hs
      cases hs
  refine ⟨_, _, hmk, ⟨fun d hd q hq => ?_, fun p h => ?_, Tar.mkdirp_both hmk hp.apart⟩, by simp, rfl⟩
  · simp only [Bool.or_eq_true, List.contains_iff_mem, List.mem_inits] at hd ⊢
    exact hd.imp (fun h => hp.closed d h q hq) (fun h => hq.trans h)
  · simp only [Bool.or_eq_true]
    exact .inl (hp.housed p h)

end Hoisted
end Oro
