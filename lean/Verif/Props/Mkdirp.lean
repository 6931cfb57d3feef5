import Verif.Proofs.Mkdirp
/-
C42: creating folders with a cache.
-/
set_option linter.unusedSectionVars false
namespace Oro
namespace Mkdirp

/-- C42 (all schedules): however many calls run at once and however they are interleaved, also with others creating
things, the cache only ever claims folders that exist (with everything above them), and a call that succeeded left its
folder and everything above it. -/
theorem C42_threads {s t : St} (hd : Disk s.fs) (hh : Honest s.fs s.cache) (hn : s.threads = []) (h : Steps s t) :
    Disk t.fs ∧ Honest t.fs t.cache ∧ ∀ p, (p, Phase.done) ∈ t.threads → Exists t.fs p := by
  have hi : Inv s := ⟨hd, hh, by rw [hn]; exact fun _ h => (by cases h)⟩
  have ht := inv_steps h hi
  exact ⟨ht.disk, ht.honest, fun p hp => ht.disk.exists_of_dir (ht.known _ hp)⟩

/-- C42 (all schedules, errors): a call that fails did so because a file is in the way, or because the folder exists
already (and its parent was in the cache). -/
theorem C42_threads_error {s t : St} (hd : Disk s.fs) (hh : Honest s.fs s.cache) (hn : s.threads = []) (h : Steps s t) {p : Path}
    (hf : (p, Phase.failed) ∈ t.threads) (hc : Clear t.fs p) : Exists t.fs p ∧ ∀ c par, p = c :: par → par ∈ t.cache := by
  have hi : Inv s := ⟨hd, hh, by rw [hn]; exact fun _ h => (by cases h)⟩
  have ht := inv_steps h hi
  rcases ht.known _ hf with h2 | h2
  · refine ⟨ht.disk.exists_of_dir h2.1, ?_⟩
    rintro c par rfl
    simpa [parentCached] using h2.2
  · exact absurd hc h2

/-- C42 (one call at a time): exactly when it succeeds. -/
theorem C42_exact {fs : FS} {cache : List Path} (hd : Disk fs) (hh : Honest fs cache) (c : Str) (par : Path) :
    (mkdirp fs cache (c :: par)).1 = true ↔
      Clear fs (c :: par) ∧ (c :: par ∈ cache ∨ fs (c :: par) = none ∨ par ∉ cache) := by
  rw [(mkdirp_spec hd hh (c :: par)).2.2.2.2.2.2]
  simp [parentCached]

/-- C42 (one call at a time): the effects. Success leaves the folder and everything above it; nothing but folders on
the way there is created, and nothing is removed; the cache stays honest. -/
theorem C42_effect {fs : FS} {cache : List Path} (hd : Disk fs) (hh : Honest fs cache) (p : Path) :
    let r := mkdirp fs cache p
    (r.1 = true → Exists r.2.1 p) ∧ Disk r.2.1 ∧ Honest r.2.1 r.2.2 ∧
    (∀ q k, fs q = some k → r.2.1 q = some k) ∧ (∀ q, r.2.1 q ≠ fs q → q <:+ p ∧ r.2.1 q = some .dir) := by
  obtain ⟨h1, h2, h3, h4, h5, _⟩ := mkdirp_spec hd hh p
  exact ⟨fun h => h1.exists_of_dir (h5 h).1, h1, h2, h3, h4⟩

/-- a call run as a thread without others does what the function does -/
theorem C42_alone {fs : FS} (hd : Disk fs) (cache : List Path) (p : Path) :
    ∃ n, runN p n (.start, fs, cache) = (if (mkdirp fs cache p).1 then .done else .failed, (mkdirp fs cache p).2) :=
  run_alone hd cache p

/-- what is at or below `d` was put into the cache if it exists -/
private def Ours (d : Path) (fs : FS) (cache : List Path) : Prop := ∀ p, d <:+ p → (fs p).isSome → p ∈ cache

private theorem ours_step {d : Path} {fs : FS} {cache : List Path} (hd : Disk fs) (hh : Honest fs cache) (ho : Ours d fs cache)
    (hc : Clear fs d) {p : Path} (hp : d <:+ p) :
    (mkdirp fs cache p).1 = true ∧ Ours d (mkdirp fs cache p).2.1 (mkdirp fs cache p).2.2 ∧ Clear (mkdirp fs cache p).2.1 d := by
  obtain ⟨h1, h2, h3, h4, h5, h6, h7⟩ := mkdirp_spec hd hh p
  have hclear : Clear fs p := by
    intro q hq he
    rcases List.suffix_or_suffix_of_suffix hq hp with h | h
    · exact hc q h he
    · exact absurd (hh q (ho q h (by rw [he]; rfl)) q (List.suffix_refl _)) (by rw [he]; simp)
  have hok : (mkdirp fs cache p).1 = true := by
    rw [h7]
    refine ⟨hclear, ?_⟩
    cases hx : fs p with
    | none => exact .inr (.inl rfl)
    | some k => exact .inl (ho p hp (by rw [hx]; rfl))
  refine ⟨hok, ?_, ?_⟩
  · -- everything new is on the way to `p`, and was put into the cache
    intro q hq hs
    by_cases hch : (mkdirp fs cache p).2.1 q = fs q
    · have hqc := ho q hq (by rw [← hch]; exact hs)
      revert hqc
      unfold mkdirp
      intro hqc
      split
      · exact hqc
      · split
        · split
          · exact List.mem_cons_of_mem _ hqc
          · exact hqc
        · split
          · exact List.mem_append_right _ hqc
          · exact hqc
    · have := h4 q hch
      revert hch
      unfold mkdirp
      intro hch
      split
      · rename_i h; rw [if_pos h] at hch; exact absurd rfl hch
      · rename_i h
        rw [if_neg h] at hch
        split
        · rename_i hpc
          rw [if_pos hpc] at hch
          split
          · rename_i hm
            rw [if_pos hm] at hch
            unfold put at hch
            dsimp only at hch
            split at hch
            · rename_i e; subst e; exact List.mem_cons_self
            · exact absurd rfl hch
          · rename_i hm; rw [if_neg hm] at hch; exact absurd rfl hch
        · rename_i hpc
          rw [if_neg hpc] at hch
          split
          · exact List.mem_append_left _ (List.mem_reverse.2 (mem_ancestors.2 this.1))
          · rename_i e; rw [e] at hch; exact absurd rfl hch
  · intro q hq he
    by_cases hch : (mkdirp fs cache p).2.1 q = fs q
    · exact hc q hq (by rw [← hch]; exact he)
    · rw [(h4 q hch).2] at he; cases he

/-- C42 (histories): into a folder that did not exist before, every sequence of calls succeeds, whatever exists
elsewhere and whatever the (honest) cache says of other folders. -/
theorem C42_fresh {d : Path} {fs : FS} {cache : List Path} (hd : Disk fs) (hh : Honest fs cache) (hc : Clear fs d)
    (hnew : ∀ p, d <:+ p → fs p = none) (ps : List Path) (hps : ∀ p ∈ ps, d <:+ p) :
    (∀ b ∈ (calls fs cache ps).1, b = true) ∧ ∀ p ∈ ps, Exists (calls fs cache ps).2.1 p := by
  have ho : Ours d fs cache := by
    intro p hp hs
    rw [hnew p hp] at hs; cases hs
  clear hnew
  have hgrow : ∀ (ps : List Path) (fs : FS) (cache : List Path), Disk fs → Honest fs cache → Grows fs (calls fs cache ps).2.1 := by
    intro ps
    induction ps with
    | nil => intro fs cache _ _; exact Grows.refl _
    | cons p ps ih =>
      intro fs cache hd hh
      obtain ⟨h1, h2, h3, _⟩ := mkdirp_spec hd hh p
      exact h3.trans (ih _ _ h1 h2)
  induction ps generalizing fs cache with
  | nil => exact ⟨fun _ h => (by cases h), fun _ h => (by cases h)⟩
  | cons p ps ih =>
    obtain ⟨h1, h2, h3, h4, h5, h6, h7⟩ := mkdirp_spec hd hh p
    obtain ⟨o1, o2, o3⟩ := ours_step hd hh ho hc (hps p List.mem_cons_self)
    have := ih h1 h2 o3 (fun q hq => hps q (List.mem_cons_of_mem _ hq)) o2
    refine ⟨?_, ?_⟩
    · intro b hb
      rcases List.mem_cons.1 hb with rfl | h
      · exact o1
      · exact this.1 b h
    · intro q hq
      rcases List.mem_cons.1 hq with rfl | h
      · intro r hr
        exact hgrow ps _ _ h1 h2 _ _ (h1.exists_of_dir (h5 o1).1 r hr)
      · exact this.2 q h

/-! ### where C42 is false of the code -/

/-- a disk with the root folder, `/a` and `/a/b` -/
def sampleFS : FS := fun p => if p = [] ∨ p = [['a']] ∨ p = [['b'], ['a']] then some .dir else none

theorem sampleFS_disk : Disk sampleFS := by
  refine ⟨by decide, ?_⟩
  intro c par h
  unfold sampleFS at h
  split at h
  · rename_i e
    rcases e with e | e | e
    · cases e
    · cases e; decide
    · cases e; decide
  · cases h

/-- C42 is false of the code: a folder that exists, but was not created through the cache while its parent was, makes
the call fail. -/
theorem C42_fails : ∃ (fs : FS) (ps : List Path), Disk fs ∧ (∀ p, fs p ≠ some .file) ∧ (calls fs [] ps).1 = [true, false] := by
  refine ⟨sampleFS, [[['a']], [['b'], ['a']]], sampleFS_disk, ?_, by decide⟩
  intro p
  unfold sampleFS
  split <;> simp

/-- C42 is false of the code when calls run at once, whenever the parent is in the cache: of two calls for the same new
folder one can fail. -/
theorem C42_race_fails {fs : FS} {cache : List Path} (hh : Honest fs cache) {c : Str} {par : Path} (hp : par ∈ cache)
    (hn : fs (c :: par) = none) : ∃ t, Steps ⟨fs, cache, []⟩ t ∧ t.threads = [(c :: par, .done), (c :: par, .failed)] := by
  have hnc : c :: par ∉ cache := fun h => by have := hh _ h _ (List.suffix_refl _); rw [hn] at this; cases this
  have hok : mkdir fs (c :: par) = .ok := mkdir_eq_ok (hh par hp par (List.suffix_refl _)) hn
  have hno : mkdir (put fs (c :: par) .dir) (c :: par) ≠ .ok := by
    intro h
    obtain ⟨_, _, _, _, h2⟩ := mkdir_ok h
    simp [put] at h2
  -- both look, then both create
  have s1 := Steps.tail (.refl ⟨fs, cache, []⟩) (.call _ (c :: par))
  have s2 := Steps.tail s1 (.call _ (c :: par))
  have s3 := Steps.tail s2 (.thread _ 0 (c :: par) .start rfl)
  have s4 := Steps.tail s3 (.thread _ 1 (c :: par) .start rfl)
  simp only [step, hnc, if_false, List.nil_append, List.cons_append, List.set_cons_zero, List.set_cons_succ] at s4
  have s5 := Steps.tail s4 (.thread _ 0 (c :: par) .checkParent rfl)
  have s6 := Steps.tail s5 (.thread _ 1 (c :: par) .checkParent rfl)
  simp only [step, parentCached, hp, decide_true, if_true, List.set_cons_zero, List.set_cons_succ] at s6
  have s7 := Steps.tail s6 (.thread _ 0 (c :: par) .create rfl)
  have s8 := Steps.tail s7 (.thread _ 1 (c :: par) .create rfl)
  simp only [step, mkdirFS, hok, hno, if_true, if_false, List.set_cons_zero, List.set_cons_succ] at s8
  have s9 := Steps.tail s8 (.thread _ 0 (c :: par) (.insert [c :: par]) rfl)
  have s10 := Steps.tail s9 (.thread _ 0 (c :: par) (.insert []) rfl)
  exact ⟨_, s10, rfl⟩

/-- its hypotheses are met: `/a` is in the cache and `/a/c` is new -/
example : ∃ t, Steps ⟨sampleFS, [[['a']]], []⟩ t ∧ t.threads = [([['c'], ['a']], .done), ([['c'], ['a']], .failed)] :=
  C42_race_fails (fun p hp => by rw [List.mem_singleton.1 hp]; exact sampleFS_disk.exists_of_dir (by decide))
    (by decide) (by decide)

/-- the hypotheses of `C42_fresh` are met -/
example : (calls sampleFS [] [[['x'], ['c']], [['y'], ['c']], [['z'], ['y'], ['c']], [['x'], ['c']]]).1 = [true, true, true, true] := by
  decide

end Mkdirp
end Oro
