import Verif.Proofs.TarModes
import Verif.Props.Tarball
/-
Property C89: the permission bits of installed files.
-/

set_option linter.unusedSectionVars false

namespace Oro
open Tar

/-- C89, extraction of an archive with a cache, whatever the link mode.  After a successful extraction into an empty folder
every file has the permission bits that the archive gives it, its owner can read and write it, and the files that the
manifest names as commands can be executed by everybody.  (For a file that is to have exactly 0o644 this holds if that is
what the cache's files and their copies have anyway: extraction does not set these bits.) -/
theorem C89_network_partial (env : Tar.Env) (ho : ∀ m, (env.ord m).Perm m) (dir : Loc) (mode : Mode)
    (expected : Option Integrity) (b : Bytes) (fs fs' : FS) (k : Integrity) (hs : Sane fs) (hv : Vacant fs dir)
    (hc : Contained (env.untar b).1) (hap : Apart dir (env.untar b).1)
    (h : extractTemp env dir true expected mode b fs = (some k, fs')) :
    ∀ e ∈ (env.untar b).1, e.regular = true → (Ordinary env ∨ e.mode ||| 0o600 ≠ 0o644) →
      Bits fs' (place dir e) (wanted env dir (env.untar b).1 e) :=
  extractTemp_bits ho hs hv hc hap h

/-- C89, from the cache, for files that are copied or cloned – as they are in all link modes if the package has install
scripts: the same, after any history of the machine, if the manifest writes its commands without detours. -/
theorem C89_cached_partial (env : Tar.Env) (ho : ∀ m, (env.ord m).Perm m) (dir : Loc) (mode : Mode) (i : Integrity) (idx : Index)
    (fs fs' : FS) (hr : Reach env fs) (hv : Vacant fs dir) (hi : fs.index i = some (.good idx))
    (hgood : ∀ t, Matches env.digest i t → Plain (env.untar t).1 ∧ Apart dir (env.untar t).1 ∧
      (∀ b ∈ commands env (env.untar t).1, Spelled b) ∧ (mode.isCopy = true ∨ HasScripts env (env.untar t).1))
    (h : extractCached env dir mode (.good idx) fs = .ok fs') :
    ∃ t, Matches env.digest i t ∧ (env.untar t).2 = true ∧ ∀ e ∈ (env.untar t).1, e.regular = true →
      (Ordinary env ∨ wanted env dir (env.untar t).1 e ≠ 0o644) →
        Bits fs' (place dir e) (wanted env dir (env.untar t).1 e) := by
  obtain ⟨hs, hh⟩ := reach_honest ho hr
  obtain ⟨t, ht, hu, hidx, hb, hcopy⟩ := hh i idx hi
  obtain ⟨hpl, hap, hsp, hm⟩ := hgood t ht
  refine ⟨t, ht, hu, extractCached_bits ho hpl hap hsp hs hv hidx hb ?_ h⟩
  unfold cacheMode
  rcases hm with hm | hm
  · rw [hm]; simpa using hm
  · rw [hcopy hm]
    cases mode <;> rfl

/-- C89, without a cache: every file has the bits of the archive, less what the process's umask takes away. -/
theorem C89_uncached (env : Tar.Env) (dir : Loc) (mode : Mode) (expected : Option Integrity) (b : Bytes) (fs fs' : FS)
    (k : Integrity) (hs : Sane fs) (h : extractTemp env dir false expected mode b fs = (some k, fs')) :
    ∀ e ∈ (env.untar b).1, e.regular = true → Bits fs' (place dir e) (env.newMode (e.mode ||| 0o600)) :=
  extractTemp_plain hs h

theorem or_exec (m : Nat) : (m ||| 0o111) &&& 0o111 = 0o111 := by
  rw [Nat.and_comm, Nat.and_or_distrib_left]
  apply Nat.eq_of_testBit_eq
  intro j
  simp only [Nat.testBit_or, Nat.testBit_and, Bool.and_self]
  cases Nat.testBit 0o111 j <;> simp

theorem setBinModes_exec {dir} (l : List Str) (fs fs' : FS) (h : setBinModes dir l fs = .ok fs') :
    (∀ i, fs.mode i &&& 0o111 = 0o111 → fs'.mode i &&& 0o111 = 0o111) ∧
    ∀ b ∈ l, fs.taken (RPath.goTo dir (RPath.components b)) = true ∧
      ∀ i, fs.files (RPath.goTo dir (RPath.components b)) = some i → fs'.mode i &&& 0o111 = 0o111 := by
  induction l generalizing fs with
  | nil => simp only [setBinModes, Except.ok.injEq] at h; subst h; exact ⟨fun _ h => h, by simp⟩
  | cons b r ih =>
    simp only [setBinModes] at h
    split at h
    · cases h
    · rename_i fs1 h1
      obtain ⟨k1, k2⟩ := ih fs1 h
      have step : (∀ i, fs.mode i &&& 0o111 = 0o111 → fs1.mode i &&& 0o111 = 0o111) ∧ fs1.files = fs.files ∧
          fs1.dirs = fs.dirs ∧ fs.taken (RPath.goTo dir (RPath.components b)) = true ∧
          ∀ i, fs.files (RPath.goTo dir (RPath.components b)) = some i → fs1.mode i &&& 0o111 = 0o111 := by
        unfold setBinMode at h1
        split at h1
        · rename_i j hj
          cases h1
          refine ⟨fun i hi => ?_, rfl, rfl, by simp [FS.taken, hj], fun i hi => ?_⟩
          · simp only [FS.setMode, upd]
            split
            · exact or_exec _
            · exact hi
          · rw [hj] at hi
            cases hi
            simp only [FS.setMode, upd_self]
            exact or_exec _
        · rename_i hn
          split at h1
          · rename_i hd
            cases h1
            exact ⟨fun _ h => h, rfl, rfl, by simp [FS.taken, hd], fun i hi => by rw [hn] at hi; cases hi⟩
          · cases h1
      refine ⟨fun i hi => k1 i (step.1 i hi), fun b' hb' => ?_⟩
      rcases List.mem_cons.1 hb' with rfl | hb'
      · exact ⟨step.2.2.2.1, fun i hi => k1 i (step.2.2.2.2 i hi)⟩
      · have := k2 b' hb'
        simp only [FS.taken, step.2.1, step.2.2.1] at this ⊢
        exact this

/-- C89.  If an archive is extracted with a cache, successfully, every command that its manifest names exists – the extraction
fails otherwise – and can be executed by everybody; no matter what else is in the archive or in the folder. -/
theorem C89_commands (env : Tar.Env) (ho : ∀ m, (env.ord m).Perm m) (dir : Loc) (mode : Mode) (expected : Option Integrity)
    (b : Bytes) (fs fs' : FS) (k : Integrity) (hs : Sane fs)
    (h : extractTemp env dir true expected mode b fs = (some k, fs')) :
    ∀ c ∈ commands env (env.untar b).1, fs'.taken (RPath.goTo dir (RPath.components c)) = true ∧
      ∀ i, fs'.files (RPath.goTo dir (RPath.components c)) = some i → fs'.mode i &&& 0o111 = 0o111 := by
  obtain ⟨d, created, s, h1, hu, _, fs2, hb2, hfs⟩ := extractTemp_some h
  have hall := extractEntries_ok (dir := dir) ho (env.untar b).1 (env.untar b).1
      ⟨{ fs with dirs := d }, created, mode, ⟨false, [], []⟩, none⟩ s hs (fun _ h => h) (by intro x hx; cases hx) h1
  have hb : Mani.binsOf s.mani = commands env (env.untar b).1 := by rw [hall.mani]; exact binsOf_commands ..
  obtain ⟨mo, hmo⟩ := (setBinModes_eq _ _).1 _ hb2
  intro c hc
  have := (setBinModes_exec _ _ _ hb2).2 c (by rw [hb]; exact hc)
  rw [hfs]
  simp only [recordIndex, ↓reduceIte]
  rw [hmo] at this ⊢
  exact this

/-! ### A concrete environment -/
namespace ExM

def x : Str := "x".toList
def ent (p : String) (c : Bytes) (m : Nat) : Entry := ⟨p.toList, p.toList, true, c, m⟩

/-- four packages: one with a command `x`; one with a file of the same contents that is not a command; one that writes the
path of its command with two slashes; one whose command is missing -/
def env : Tar.Env where
  digest _ b := ExT.str b
  xxh := ExT.str
  untar b := match b with
    | [1] => ([ent "p/package.json" [7] 0o644, ent "p/x" [10] 0o755, ent "p/r" [11] 0o400], true)
    | [2] => ([ent "p/package.json" [8] 0o644, ent "p/y" [10] 0o664], true)
    | [3] => ([ent "p/package.json" [9] 0o644, ent "p/l/b" [10] 0o644], true)
    | [4] => ([ent "p/package.json" [7] 0o644], true)
    | _ => ([], false)
  manifest b := match b with
    | [7] => some ⟨false, ["x".toList]⟩
    | [8] => some ⟨false, []⟩
    | [9] => some ⟨false, ["l//b".toList]⟩
    | _ => none
  reflinks := false
  hardlinks := true
  ord m := m
  limit := 2
  storeMode := 0o644
  newMode m := m
  cloneMode _ := 0o644
  copyMode _ _ := 0o644

/-- the same, but a copy has the permission bits of its original, and the cache's files can be read only by their owner -/
def envCopy : Tar.Env := { env with storeMode := 0o600, copyMode := fun m _ => m }

theorem ord_perm : ∀ m, (env.ord m).Perm m := fun _ => .refl _
theorem ordinary : Ordinary env := ⟨rfl, fun _ => rfl, fun _ => rfl⟩

def after (e : Tar.Env) (mode : Mode) (d : Loc) (n : UInt8) (fs : FS) : FS :=
  (extractToDir e d true mode (some (ExT.n n)) (ExT.net n) fs).2

/-- the second package, then the first, both with hard links -/
def both : FS := after env .hardlink ExT.d2 1 (after env .hardlink ExT.d1 2 ExT.empty)
end ExM

-- the hypotheses of `C89_network_partial`, and what it says, for the first package
example : (extractTemp ExM.env ExT.d1 true none .hardlink [1] ExT.empty).1 ≠ none := by decide +kernel
example : Contained (ExM.env.untar [1]).1 := by unfold Contained; decide +kernel
example : Apart ExT.d1 (ExM.env.untar [1]).1 := by unfold Apart; decide +kernel
example : ((ExM.env.untar [1]).1.map (wanted ExM.env ExT.d1 (ExM.env.untar [1]).1)) = [0o644, 0o755, 0o600] := by
  decide +kernel
-- the hypotheses of `C89_cached_partial`
example : Spelled "x".toList := ⟨fun c hc => ⟨"x".toList, by
    have : RPath.components "x".toList = [.normal "x".toList] := by decide +kernel
    rw [this] at hc
    simpa using hc⟩, by decide +kernel⟩
example : (match (ExM.after ExM.env .copy ExT.d1 1 ExT.empty).index (ExT.n 1) with
    | some (.good idx) => match extractCached ExM.env ExT.d2 .copy (.good idx) (ExM.after ExM.env .copy ExT.d1 1 ExT.empty) with
      | .ok fs => (fs.files (ExT.d2 ++ [ExM.x])).map fs.mode
      | .error _ => none
    | _ => none) = some 0o755 := by decide +kernel
-- without a cache
example : (extractTemp ExM.env ExT.d1 false none .copy [1] ExT.empty).1 ≠ none := by decide +kernel

/-- C89 fails with hard links: installing a package from the cache changes the permission bits of an installed file of
another package with the same contents; here a command can no longer be executed. -/
theorem C89_shared_fails : Reach ExM.env ExM.both ∧ Bits ExM.both (ExT.d2 ++ [ExM.x]) 0o755 ∧
    ¬ Inside ExT.d3 (ExT.d2 ++ [ExM.x]) ∧
    (extractToDir ExM.env ExT.d3 true .hardlink (some (ExT.n 2)) none ExM.both).1 = some (ExT.n 2) ∧
    Bits (extractToDir ExM.env ExT.d3 true .hardlink (some (ExT.n 2)) none ExM.both).2 (ExT.d2 ++ [ExM.x]) 0o664 := by
  refine ⟨.extract _ _ _ _ _ _ (.extract _ _ _ _ _ _ (.init _ ExT.empty_sane (fun _ => rfl))), ⟨_, rfl, by decide +kernel⟩,
    by unfold Inside; decide, by decide +kernel, ⟨_, rfl, by decide +kernel⟩⟩

/-- C89 fails for commands whose path is not written in the shortest way: the file can be executed after the first
installation, but not after an installation from the cache. -/
theorem C89_spelling_fails :
    let p : Loc := ["l".toList, "b".toList]
    let fs1 := ExM.after ExM.env .copy ExT.d1 3 ExT.empty
    IsCommand ExM.env ExT.d2 (ExM.env.untar [3]).1 (ExT.d2 ++ p) ∧ Bits fs1 (ExT.d1 ++ p) 0o755 ∧
    (extractToDir ExM.env ExT.d2 true .copy (some (ExT.n 3)) none fs1).1 = some (ExT.n 3) ∧
    Bits (extractToDir ExM.env ExT.d2 true .copy (some (ExT.n 3)) none fs1).2 (ExT.d2 ++ p) 0o644 := by
  refine ⟨by decide +kernel, ⟨_, rfl, by decide +kernel⟩, by decide +kernel, ⟨_, rfl, by decide +kernel⟩⟩

/-- C89, a consequence of making commands executable: a package whose manifest names a command that is not in the archive
cannot be extracted with a cache, though it can without one. -/
theorem C89_missing_fails :
    (extractToDir ExM.env ExT.d1 true .copy (some (ExT.n 4)) (ExT.net 4) ExT.empty).1 = none ∧
    (extractToDir ExM.env ExT.d1 false .copy (some (ExT.n 4)) (ExT.net 4) ExT.empty).1 = some (ExT.n 4) := by
  constructor <;> decide +kernel

/-- C89 fails for ordinary files if copies get the permission bits of the cache's private files: a file that everybody can read
in the archive can be read only by its owner when it is installed. -/
theorem C89_private_fails : (ExM.env.untar [1]).1.head?.map (fun e => e.mode) = some 0o644 ∧
    Bits (ExM.after ExM.envCopy .copy ExT.d1 1 ExT.empty) (ExT.d1 ++ [kPackageJson]) 0o600 :=
  ⟨by decide +kernel, ⟨_, rfl, by decide +kernel⟩⟩

/-- C89, without a cache: commands are not made executable (linking them later does that). -/
theorem C89_uncached_fails :
    (extractToDir ExM.env ExT.d1 false .copy (some (ExT.n 3)) (ExT.net 3) ExT.empty).1 = some (ExT.n 3) ∧
    IsCommand ExM.env ExT.d1 (ExM.env.untar [3]).1 (ExT.d1 ++ ["l".toList, "b".toList]) ∧
    Bits (extractToDir ExM.env ExT.d1 false .copy (some (ExT.n 3)) (ExT.net 3) ExT.empty).2
      (ExT.d1 ++ ["l".toList, "b".toList]) 0o644 :=
  ⟨by decide +kernel, by decide +kernel, ⟨_, rfl, by decide +kernel⟩⟩

end Oro
