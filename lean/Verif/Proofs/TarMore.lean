import Verif.Proofs.TarInv
/-
A successful extraction: every file is present, the index describes the archive, and which files share storage with
the cache.
-/

set_option linter.unusedSectionVars false

namespace Oro
namespace Tar

theorem put_content {env : Env} {fs fs' : FS} {c p H} (hs : Sane fs) (h : Put (commit env fs c) fs' p fs.next H) :
    ∃ j, fs'.files p = some j ∧ fs'.content j = c := by
  rcases h with ⟨_, _, mo, rfl⟩ | ⟨_, mo, rfl⟩ | ⟨j, hj, mo, rfl⟩
  · exact ⟨fs.next, by simp [upd], commit_content env fs c⟩
  · exact ⟨fs.next + 1, by simp [FS.create, upd, commit], by simp [FS.create, upd, commit]⟩
  · have : j < fs.next := hs.1 _ _ hj
    exact ⟨j, hj, by simp [FS.overwrite, upd, commit]; omega⟩

theorem shared_put {fs fs' : FS} {p i H q} (hs : Sane fs) (h : Put fs fs' p i H) (hq : SharedWithCache fs' q) :
    SharedWithCache fs q ∨ (q = p ∧ H) := by
  obtain ⟨k, x, hf, hst⟩ := hq
  rcases h with ⟨hH, _, mo, rfl⟩ | ⟨_, mo, rfl⟩ | ⟨j, hj, mo, rfl⟩
  · by_cases e : q = p
    · exact .inr ⟨e, hH⟩
    · simp only [FS.create, upd_ne _ _ e] at hf
      exact .inl ⟨k, x, hf, hst⟩
  · by_cases e : q = p
    · subst e
      simp only [FS.create, upd_self, Option.some.injEq] at hf hst
      subst hf
      have := hs.2 x _ hst
      omega
    · simp only [FS.create, upd_ne _ _ e] at hf
      exact .inl ⟨k, x, hf, hst⟩
  · exact .inl ⟨k, x, hf, hst⟩

theorem shared_commit {env : Env} {fs : FS} {c q} (hs : Sane fs) (hq : SharedWithCache (commit env fs c) q) :
    SharedWithCache fs q := by
  obtain ⟨k, x, hf, hst⟩ := hq
  have := hs.1 q k hf
  simp only [commit, upd] at hst
  split at hst
  · simp only [Option.some.injEq] at hst; omega
  · exact ⟨k, x, hf, hst⟩

theorem reExtract_ok {env dir} (l : List (List Comp × (Str × Nat))) (fs fs' : FS) (hs : Sane fs)
    (h : reExtract env dir l fs = .ok fs') :
    (∀ q, (fs.files q).isSome → (fs'.files q).isSome) ∧
    (∀ q, SharedWithCache fs' q → SharedWithCache fs q ∧ ∀ kh ∈ l, RPath.goTo dir kh.1 ≠ q) := by
  induction l generalizing fs with
  | nil =>
    simp only [reExtract, Except.ok.injEq] at h
    subst h
    exact ⟨fun _ h => h, fun _ h => ⟨h, by simp⟩⟩
  | cons kh r ih =>
    obtain ⟨k, x⟩ := kh
    simp only [reExtract] at h
    split at h
    · cases h
    · rename_i fs1 h1
      have e1 := remove_eq h1
      split at h
      · cases h
      · rename_i fs2 h2
        have s1 : Sane fs1 := by
          refine ⟨fun q i hq => ?_, by rw [e1]; exact hs.2⟩
          rw [e1] at hq ⊢
          simp only [upd] at hq
          split at hq
          · cases hq
          · exact hs.1 q i hq
        obtain ⟨i, hst, hx, hp⟩ := extractFile_put h2
        have s2 : Sane fs2 := sane_put s1 (s1.2 _ _ hst) hp
        obtain ⟨ih1, ih2⟩ := ih fs2 s2 h
        refine ⟨fun q hq => ?_, fun q hq => ?_⟩
        · apply ih1
          by_cases e : q = RPath.goTo dir k
          · rw [e]; exact put_present hp
          · refine put_present_mono hp ?_
            rw [e1]; simpa only [upd_ne _ _ e] using hq
        · obtain ⟨hq2, hr⟩ := ih2 q hq
          have hq1 : SharedWithCache fs1 q := by
            rcases shared_put s1 hp hq2 with h | ⟨_, h⟩
            · exact h
            · simp [Mode.isCopy] at h
          have hne : RPath.goTo dir k ≠ q := by
            rintro rfl
            obtain ⟨_, _, hf, _⟩ := hq1
            rw [e1] at hf
            simp [upd] at hf
          refine ⟨?_, fun kh hkh => ?_⟩
          · obtain ⟨a, b, c, d⟩ := hq1
            rw [e1] at c d
            simp only [upd_ne _ _ (Ne.symm hne)] at c
            exact ⟨a, b, c, d⟩
          · rcases List.mem_cons.1 hkh with rfl | hkh
            · exact hne
            · exact hr kh hkh

/-- package.json at the top of the folder -/
def pjLoc (dir : Loc) : Loc := dir ++ [kPackageJson]

/-- an entry that is the package's manifest and declares install scripts -/
def IsScripts (env : Env) (e : Entry) : Prop :=
  e.regular = true ∧ subpath e = [.normal kPackageJson] ∧ ∃ m, env.manifest e.content = some m ∧ m.scripts = true

/-- which files may share storage with the cache while extracting -/
def Priv (dir : Loc) (s : XSt) : Prop :=
  ∀ p, Inside dir p → SharedWithCache s.fs p →
    p = pjLoc dir ∨ (s.mode.isCopy = false ∧ ∃ k ∈ s.idx.files.keys, RPath.goTo dir k = p)

/-- what one successful entry (with a cache) does to the bookkeeping -/
structure Did (env : Env) (dir : Loc) (e : Entry) (s s' : XSt) : Prop where
  files : s'.idx.files = if e.regular then s.idx.files.insert (subpath e) (env.xxh e.content, e.bits) else s.idx.files
  binPaths : s'.idx.binPaths = s.idx.binPaths
  copyMono : s.idx.shouldCopy = true → s'.idx.shouldCopy = true
  modeMono : s.mode.isCopy = true → s'.mode.isCopy = true
  scripts : IsScripts env e → s'.idx.shouldCopy = true ∧ s'.mode.isCopy = true
  keep : ∀ q, (s.fs.files q).isSome → (s'.fs.files q).isSome
  present : e.regular = true → (s'.fs.files (place dir e)).isSome
  priv : Priv dir s → Priv dir s'
  mani : s'.mani = if e.regular = true ∧ subpath e = [.normal kPackageJson] then env.manifest e.content else s.mani

theorem pj_goTo (dir : Loc) : RPath.goTo dir [.normal kPackageJson] = pjLoc dir := rfl

structure DidScripts (dir : Loc) (m : Mani) (s s' : XSt) : Prop where
  files : s'.idx.files = s.idx.files
  binPaths : s'.idx.binPaths = s.idx.binPaths
  copyMono : s.idx.shouldCopy = true → s'.idx.shouldCopy = true
  modeMono : s.mode.isCopy = true → s'.mode.isCopy = true
  scripts : m.scripts = true → s'.idx.shouldCopy = true ∧ s'.mode.isCopy = true
  keep : ∀ q, (s.fs.files q).isSome → (s'.fs.files q).isSome
  priv : Priv dir s → Priv dir s'

theorem onScripts_ok {env : Env} {dir m s s'} (ho : ∀ f, (env.ord f).Perm f) (hs : Sane s.fs)
    (h : onScripts env dir m s = .ok s') : DidScripts dir m s s' := by
  unfold onScripts at h
  split at h
  · split at h
    · cases h
      exact ⟨rfl, rfl, fun _ => rfl, id, fun _ => ⟨rfl, by assumption⟩, fun _ h => h, fun h => h⟩
    · rename_i hm
      split at h <;> rename_i h1
      · cases h
      · cases h
        obtain ⟨k1, k2⟩ := reExtract_ok _ _ _ hs h1
        refine ⟨rfl, rfl, fun _ => rfl, fun _ => rfl, fun _ => ⟨rfl, rfl⟩, k1, fun hp p hin hsh => ?_⟩
        obtain ⟨h2, h3⟩ := k2 p hsh
        rcases hp p hin h2 with h | ⟨_, k, hk, hkp⟩
        · exact .inl h
        · obtain ⟨kh, hkh, rfl⟩ := List.mem_map.1 hk
          exact absurd hkp (h3 kh ((ho _).mem_iff.2 hkh))
  · rename_i hm
    cases h
    exact ⟨rfl, rfl, id, id, fun h => absurd h hm, fun _ h => h, fun h => h⟩

theorem onManifest_ok {env : Env} {dir p s s' c j} (ho : ∀ f, (env.ord f).Perm f) (hs : Sane s.fs)
    (hj : s.fs.files p = some j) (hc : s.fs.content j = c) (h : onManifest env dir p s = .ok s') :
    ∃ m, env.manifest c = some m ∧ DidScripts dir m s s' ∧ s'.mani = some m := by
  unfold onManifest at h
  simp only [hj, Option.bind_some, hc] at h
  split at h
  · cases h
  · rename_i m hm
    refine ⟨m, hm, ?_⟩
    split at h <;> rename_i h1
    · cases h
    · cases h
      have := onScripts_ok ho hs h1
      exact ⟨⟨this.files, this.binPaths, this.copyMono, this.modeMono, this.scripts, this.keep, this.priv⟩, rfl⟩

theorem keys_insert_mono {K V : Type} [DecidableEq K] (m : IMap K V) (k k2 : K) (v : V) (h : k2 ∈ m.keys) :
    k2 ∈ (m.insert k v).keys := by
  by_contra hn
  rw [← IMap.get?_eq_none_iff] at hn
  rw [IMap.get?_insert] at hn
  split at hn
  · cases hn
  · rw [IMap.get?_eq_none_iff] at hn
    exact hn h

theorem keys_insert_self {K V : Type} [DecidableEq K] (m : IMap K V) (k : K) (v : V) : k ∈ (m.insert k v).keys := by
  by_contra hn
  rw [← IMap.get?_eq_none_iff, IMap.get?_insert_self] at hn
  cases hn

theorem priv_remember {env dir e s} (h : Priv dir s) : Priv dir (remember env e s) := by
  intro p hin hsh
  rcases h p hin hsh with h | ⟨hm, k', hk', he⟩
  · exact .inl h
  · exact .inr ⟨hm, k', keys_insert_mono _ _ _ _ hk', he⟩

theorem putCached_ok {env : Env} {dir e s s'} (ho : ∀ f, (env.ord f).Perm f) (hr : e.regular = true) (hs : Sane s.fs)
    (h : putCached env dir e s = .ok s') : Did env dir e s s' := by
  unfold putCached at h
  simp only at h
  split at h
  · cases h
  · rename_i fs1 h1
    obtain ⟨i, hst, hx, hp⟩ := extractFile_put h1
    rw [commit_store] at hst
    cases hst
    have s1 : Sane fs1 := sane_put (sane_commit hs) (by simp [commit]) hp
    have keep1 : ∀ q, (s.fs.files q).isSome → (fs1.files q).isSome := fun q hq => put_present_mono hp hq
    have sh1 : ∀ q, SharedWithCache fs1 q → SharedWithCache s.fs q ∨ (q = place dir e ∧ s.mode.isCopy = false) := by
      intro q hq
      rcases shared_put (sane_commit hs) hp hq with h | h
      · exact .inl (shared_commit hs h)
      · exact .inr h
    split at h
    · rename_i hpj
      obtain ⟨j, hj, hjc⟩ := put_content hs hp
      have hpl : place dir e = pjLoc dir := by
        unfold place; rw [show (RPath.components e.header).tail = subpath e from rfl, hpj]; rfl
      split at h <;> rename_i h2
      · cases h
      · cases h
        obtain ⟨m, hm, d, hmani⟩ := onManifest_ok (c := e.content) ho (s := { s with fs := fs1 }) s1 hj hjc h2
        refine ⟨?_, d.binPaths, d.copyMono, d.modeMono, ?_, fun q hq => d.keep q (keep1 q hq),
          fun _ => d.keep _ (put_present hp), fun hpv => priv_remember (d.priv ?_),
          by rw [if_pos ⟨hr, hpj⟩, hm]; exact hmani⟩
        · simp only [hr, ↓reduceIte, remember, d.files]
        · rintro ⟨_, _, m', hm', hsc⟩
          rw [hm] at hm'; cases hm'
          exact d.scripts hsc
        · intro p hin hsh
          rcases sh1 p hsh with h | ⟨h, _⟩
          · exact hpv p hin h
          · exact .inl (h.trans hpl)
    · rename_i hpj
      cases h
      refine ⟨?_, rfl, id, id, ?_, keep1, fun _ => put_present hp, fun hpv p hin hsh => ?_, by rw [if_neg (fun h => hpj h.2)]; rfl⟩
      · simp only [hr, ↓reduceIte, remember]
      · rintro ⟨_, h, _⟩; exact absurd h hpj
      · rcases sh1 p hsh with h | ⟨h, hm⟩
        · exact priv_remember (s := { s with fs := s.fs }) hpv p hin h
        · exact .inr ⟨hm, subpath e, keys_insert_self .., h.symm⟩

theorem extractEntry_ok {env : Env} {dir e s s'} (ho : ∀ f, (env.ord f).Perm f) (hs : Sane s.fs)
    (h : extractEntry env dir true s e = .ok s') : Did env dir e s s' := by
  unfold extractEntry at h
  split at h
  · rename_i hr
    split at h
    · cases h
    · rename_i created fs1 h1
      obtain ⟨d, rfl⟩ := mkdirp_eq h1
      simp only [↓reduceIte] at h
      have := putCached_ok ho hr (s := { s with created := created, fs := { s.fs with dirs := d } }) hs h
      exact ⟨this.files, this.binPaths, this.copyMono, this.modeMono, this.scripts, this.keep, this.present, this.priv, this.mani⟩
  · rename_i hr
    cases h
    exact ⟨by simp [hr], rfl, id, id, fun h => absurd h.1 hr, fun _ h => h, fun h => absurd h hr, fun h => h, by simp [hr]⟩

structure DidAll (env : Env) (dir : Loc) (es : List Entry) (s s' : XSt) : Prop where
  files : s'.idx.files = listing env es s.idx.files
  binPaths : s'.idx.binPaths = s.idx.binPaths
  copyMono : s.idx.shouldCopy = true → s'.idx.shouldCopy = true
  modeMono : s.mode.isCopy = true → s'.mode.isCopy = true
  scripts : (∃ e ∈ es, IsScripts env e) → s'.idx.shouldCopy = true ∧ s'.mode.isCopy = true
  keep : ∀ q, (s.fs.files q).isSome → (s'.fs.files q).isSome
  present : ∀ e ∈ es, e.regular = true → (s'.fs.files (place dir e)).isSome
  priv : Priv dir s → Priv dir s'
  mani : s'.mani = manifestOf env es s.mani

theorem extractEntries_ok {env : Env} {dir} (ho : ∀ f, (env.ord f).Perm f) (es : List Entry) (l : List Entry)
    (s s' : XSt) (hs : Sane s.fs) (hl : ∀ e ∈ l, e ∈ es) (hi : FromEntries env es s.idx.files)
    (h : extractEntries env dir true l s = .ok s') : DidAll env dir l s s' := by
  induction l generalizing s with
  | nil =>
    simp only [extractEntries, Except.ok.injEq] at h
    subst h
    exact ⟨rfl, rfl, id, id, by simp, fun _ h => h, by simp, fun h => h, rfl⟩
  | cons e r ih =>
    simp only [extractEntries] at h
    split at h
    · cases h
    · rename_i s1 h1
      have d1 := extractEntry_ok ho hs h1
      have st1 := extractEntry_steps (dir := dir) (cache := true) (s := s) ho (hl e (List.mem_cons_self ..)) hi
      have sane1 : Sane s1.fs := by
        have := st1.1
        rw [h1] at this
        exact this.inv Sane (fun x y hx st => step_sane hx st) hs
      have hi1 := st1.2
      rw [h1] at hi1
      have d2 := ih s1 sane1 (fun x hx => hl x (List.mem_cons_of_mem _ hx)) hi1 h
      refine ⟨?_, d2.binPaths.trans d1.binPaths, fun h => d2.copyMono (d1.copyMono h), fun h => d2.modeMono (d1.modeMono h), ?_,
        fun q hq => d2.keep q (d1.keep q hq), ?_, fun h => d2.priv (d1.priv h), ?_⟩
      · rw [d2.files, d1.files]; rfl
      · rintro ⟨e', he', hsc⟩
        rcases List.mem_cons.1 he' with rfl | he'
        · exact ⟨d2.copyMono (d1.scripts hsc).1, d2.modeMono (d1.scripts hsc).2⟩
        · exact d2.scripts ⟨e', he', hsc⟩
      · intro e' he' hr'
        rcases List.mem_cons.1 he' with rfl | he'
        · exact d2.keep _ (d1.present hr')
        · exact d2.present e' he' hr'
      · rw [d2.mani, d1.mani]; rfl

end Tar
end Oro
