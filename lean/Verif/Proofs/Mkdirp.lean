import Verif.Spec.Mkdirp
/- Lemmas for C42. -/
set_option linter.unusedSectionVars false
namespace Oro
namespace Mkdirp

theorem Disk.up {fs : FS} (h : Disk fs) {p : Path} (hp : (fs p).isSome) {q : Path} (hq : q <:+ p) : q = p ∨ fs q = some .dir := by
  induction p with
  | nil => left; exact List.suffix_nil.1 hq
  | cons c par ih =>
    rcases List.suffix_cons_iff.1 hq with rfl | h2
    · exact .inl rfl
    · right
      have hd := h.inside c par hp
      rcases ih (by rw [hd]; rfl) h2 with rfl | h3
      · exact hd
      · exact h3

theorem Disk.exists_of_dir {fs : FS} (h : Disk fs) {p : Path} (hp : fs p = some .dir) : Exists fs p := by
  intro q hq
  rcases h.up (by rw [hp]; rfl) hq with rfl | h2
  · exact hp
  · exact h2

/-- more exists than before -/
def Grows (fs fs' : FS) : Prop := ∀ q k, fs q = some k → fs' q = some k

theorem Grows.refl (fs : FS) : Grows fs fs := fun _ _ h => h
theorem Grows.trans {a b c : FS} (h : Grows a b) (h2 : Grows b c) : Grows a c := fun q k e => h2 q k (h q k e)

theorem grows_put {fs : FS} {p : Path} (k : Kind) (h : fs p = none) : Grows fs (put fs p k) := by
  intro q k' hq
  unfold put
  split
  · rename_i e; rw [e, h] at hq; cases hq
  · exact hq

theorem disk_put {fs : FS} (hd : Disk fs) {c : Str} {par : Path} (k : Kind) (h : fs (c :: par) = none) (hp : fs par = some .dir) :
    Disk (put fs (c :: par) k) := by
  have hg := grows_put k h
  refine ⟨hg _ _ hd.root, ?_⟩
  intro c2 par2 hs
  unfold put at hs
  split at hs
  · rename_i e
    cases e
    exact hg _ _ hp
  · exact hg _ _ (hd.inside c2 par2 hs)

theorem mkdir_ok {fs : FS} {p : Path} (h : mkdir fs p = .ok) : ∃ c par, p = c :: par ∧ fs par = some .dir ∧ fs p = none := by
  cases p with
  | nil => cases h
  | cons c par =>
    simp only [mkdir] at h
    split at h
    · rename_i e
      split at h
      · cases h
      · rename_i e2
        exact ⟨c, par, rfl, e, by simpa using e2⟩
    · cases h
    · cases h

theorem mkdir_eq_ok {fs : FS} {c : Str} {par : Path} (h1 : fs par = some .dir) (h2 : fs (c :: par) = none) : mkdir fs (c :: par) = .ok := by
  simp [mkdir, h1, h2]

theorem mkdir_notFound {fs : FS} {p : Path} (h : mkdir fs p = .notFound) : ∃ c par, p = c :: par ∧ fs par = none := by
  cases p with
  | nil => cases h
  | cons c par =>
    simp only [mkdir] at h
    split at h
    · split at h <;> cases h
    · cases h
    · rename_i e; exact ⟨c, par, rfl, e⟩

theorem mkdir_other {fs : FS} {c : Str} {par : Path} (h : mkdir fs (c :: par) = .other) :
    (fs (c :: par)).isSome ∨ fs par = some .file := by
  simp only [mkdir] at h
  split at h
  · split at h
    · left; assumption
    · cases h
  · right; assumption
  · cases h

theorem disk_mkdirFS {fs : FS} (hd : Disk fs) (p : Path) : Disk (mkdirFS fs p) := by
  unfold mkdirFS
  split
  · rename_i h
    obtain ⟨c, par, rfl, h1, h2⟩ := mkdir_ok h
    exact disk_put hd _ h2 h1
  · exact hd

theorem grows_mkdirFS (fs : FS) (p : Path) : Grows fs (mkdirFS fs p) := by
  unfold mkdirFS
  split
  · rename_i h
    obtain ⟨c, par, rfl, h1, h2⟩ := mkdir_ok h
    exact grows_put _ h2
  · exact Grows.refl _

theorem mem_ancestors {p q : Path} : q ∈ ancestors p ↔ q <:+ p := by
  induction p with
  | nil => simp [ancestors]
  | cons c par ih => rw [ancestors, List.mem_cons, ih, List.suffix_cons_iff]

theorem honest_grows {fs fs' : FS} {cache : List Path} (h : Honest fs cache) (hg : Grows fs fs') : Honest fs' cache :=
  fun p hp q hq => hg _ _ (h p hp q hq)

/-! ### create_dir_all -/

/-- only folders on the way to `p` are created -/
def Only (fs fs' : FS) (p : Path) : Prop := ∀ q, fs' q ≠ fs q → q <:+ p ∧ fs' q = some .dir

theorem only_put {fs : FS} {p q : Path} (hq : q <:+ p) : Only fs (put fs q .dir) p := by
  intro r hr
  unfold put at hr ⊢
  split at hr
  · rename_i e; subst e; exact ⟨hq, by simp⟩
  · exact absurd rfl hr

theorem createDirAll_spec {fs : FS} (hd : Disk fs) (p : Path) :
    (∀ fs', createDirAll fs p = some fs' → Disk fs' ∧ Grows fs fs' ∧ Only fs fs' p ∧ fs' p = some .dir) ∧
    ((createDirAll fs p).isSome ↔ Clear fs p) := by
  induction p with
  | nil =>
    constructor
    · intro fs' h
      cases h
      exact ⟨hd, Grows.refl _, fun q hq => absurd rfl hq, hd.root⟩
    · refine ⟨fun _ q hq => ?_, fun _ => rfl⟩
      rw [List.suffix_nil.1 hq, hd.root]; simp
  | cons c par ih =>
    cases hm : mkdir fs (c :: par) with
    | ok =>
      have e : createDirAll fs (c :: par) = some (put fs (c :: par) .dir) := by simp [createDirAll, hm]
      obtain ⟨c', par', he, h1, h2⟩ := mkdir_ok hm
      cases he
      rw [e]
      refine ⟨?_, ?_⟩
      · intro fs' h; cases h
        exact ⟨disk_put hd _ h2 h1, grows_put _ h2, only_put (List.suffix_refl _), by simp [put]⟩
      · refine ⟨fun _ q hq => ?_, fun _ => rfl⟩
        rcases List.suffix_cons_iff.1 hq with rfl | h3
        · rw [h2]; simp
        · rw [hd.exists_of_dir h1 q h3]; simp
    | other =>
      have e : createDirAll fs (c :: par) = if isDir fs (c :: par) then some fs else none := by simp [createDirAll, hm]
      rw [e]
      by_cases hdir : fs (c :: par) = some .dir
      · rw [if_pos (by simp [isDir, hdir])]
        refine ⟨?_, ?_⟩
        · intro fs' h; cases h
          exact ⟨hd, Grows.refl _, fun q hq => absurd rfl hq, hdir⟩
        · refine ⟨fun _ q hq => ?_, fun _ => rfl⟩
          rw [hd.exists_of_dir hdir q hq]; simp
      · rw [if_neg (by simp [isDir, hdir])]
        refine ⟨fun _ h => (by cases h), ⟨fun h => (by cases h), fun hc => ?_⟩⟩
        exfalso
        rcases mkdir_other hm with h | h
        · have := hc _ (List.suffix_refl _)
          cases hk : fs (c :: par) with
          | none => rw [hk] at h; cases h
          | some k =>
            cases k with
            | dir => exact hdir hk
            | file => exact this hk
        · exact hc par (List.suffix_cons _ _) h
    | notFound =>
      obtain ⟨c', par', he, h1⟩ := mkdir_notFound hm
      cases he
      have hself : fs (c :: par) = none := by
        cases hk : fs (c :: par) with
        | none => rfl
        | some k => exact absurd (hd.inside c par (by rw [hk]; rfl)) (by rw [h1]; simp)
      have hclear : Clear fs (c :: par) ↔ Clear fs par := by
        constructor
        · intro h q hq; exact h q (hq.trans (List.suffix_cons _ _))
        · intro h q hq
          rcases List.suffix_cons_iff.1 hq with rfl | h3
          · rw [hself]; simp
          · exact h q h3
      cases hc : createDirAll fs par with
      | none =>
        have e : createDirAll fs (c :: par) = none := by simp [createDirAll, hm, hc]
        rw [e]
        refine ⟨fun _ h => (by cases h), ?_⟩
        rw [hclear, ← ih.2, hc]
      | some fs' =>
        obtain ⟨i1, i2, i3, i4⟩ := ih.1 fs' hc
        have hnew : fs' (c :: par) = none := by
          refine Classical.byContradiction fun hne => ?_
          have := i3 (c :: par) (by rw [hself]; exact hne)
          have := this.1.length_le
          simp at this; omega
        have hmk := mkdir_eq_ok i4 hnew
        have e : createDirAll fs (c :: par) = some (put fs' (c :: par) .dir) := by simp [createDirAll, hm, hc, hmk]
        rw [e]
        refine ⟨?_, ?_⟩
        · intro fs2 h; cases h
          refine ⟨disk_put i1 _ hnew i4, i2.trans (grows_put _ hnew), ?_, by simp [put]⟩
          intro q hq
          by_cases hqe : q = c :: par
          · subst hqe; exact ⟨List.suffix_refl _, by simp [put]⟩
          · have : put fs' (c :: par) .dir q = fs' q := by simp [put, hqe]
            rw [this] at hq ⊢
            exact ⟨(i3 q hq).1.trans (List.suffix_cons _ _), (i3 q hq).2⟩
        · rw [hclear, ← ih.2, hc]; simp

/-- after `mkdir` on the way back of `create_dir_all`, when it got there because the parent was missing -/
theorem createDirAll_notFound {fs fs' : FS} (hd : Disk fs) {c : Str} {par : Path} (hm : mkdir fs (c :: par) = .notFound)
    (hc : createDirAll fs par = some fs') : mkdir fs' (c :: par) = .ok ∧ createDirAll fs (c :: par) = some (put fs' (c :: par) .dir) := by
  obtain ⟨c', par', he, h1⟩ := mkdir_notFound hm
  cases he
  have hself : fs (c :: par) = none := by
    cases hk : fs (c :: par) with
    | none => rfl
    | some k => exact absurd (hd.inside c par (by rw [hk]; rfl)) (by rw [h1]; simp)
  obtain ⟨i1, i2, i3, i4⟩ := (createDirAll_spec hd par).1 fs' hc
  have hnew : fs' (c :: par) = none := by
    refine Classical.byContradiction fun hne => ?_
    have := i3 (c :: par) (by rw [hself]; exact hne)
    have := this.1.length_le
    simp at this; omega
  have hmk := mkdir_eq_ok i4 hnew
  exact ⟨hmk, by simp [createDirAll, hm, hc, hmk]⟩

/-! ### a call -/

theorem mkdirp_spec {fs : FS} {cache : List Path} (hd : Disk fs) (hh : Honest fs cache) (p : Path) :
    Disk (mkdirp fs cache p).2.1 ∧ Honest (mkdirp fs cache p).2.1 (mkdirp fs cache p).2.2 ∧ Grows fs (mkdirp fs cache p).2.1 ∧
    Only fs (mkdirp fs cache p).2.1 p ∧
    ((mkdirp fs cache p).1 = true → (mkdirp fs cache p).2.1 p = some .dir ∧ p ∈ (mkdirp fs cache p).2.2) ∧
    (∀ q ∈ (mkdirp fs cache p).2.2, q ∈ cache ∨ q <:+ p) ∧
    ((mkdirp fs cache p).1 = true ↔ Clear fs p ∧ (p ∈ cache ∨ fs p = none ∨ parentCached cache p = false)) := by
  unfold mkdirp
  split
  · rename_i h
    refine ⟨hd, hh, Grows.refl _, fun q hq => absurd rfl hq, fun _ => ⟨hh p h p (List.suffix_refl _), h⟩, fun q hq => .inl hq, ?_⟩
    refine ⟨fun _ => ⟨fun q hq => ?_, .inl h⟩, fun _ => rfl⟩
    rw [hh p h q hq]; simp
  · rename_i hnc
    split
    · rename_i hpc
      split
      · rename_i hm
        obtain ⟨c, par, rfl, h1, h2⟩ := mkdir_ok hm
        have hg := grows_put .dir h2
        have hdd := disk_put hd .dir h2 h1
        have hself : put fs (c :: par) .dir (c :: par) = some .dir := by simp [put]
        refine ⟨hdd, ?_, hg, only_put (List.suffix_refl _), fun _ => ⟨hself, List.mem_cons_self⟩, ?_, ?_⟩
        · intro q hq
          rcases List.mem_cons.1 hq with rfl | h3
          · exact hdd.exists_of_dir hself
          · exact honest_grows hh hg q h3
        · intro q hq
          rcases List.mem_cons.1 hq with rfl | h3
          · exact .inr (List.suffix_refl _)
          · exact .inl h3
        · refine ⟨fun _ => ⟨fun q hq => ?_, .inr (.inl h2)⟩, fun _ => rfl⟩
          rcases List.suffix_cons_iff.1 hq with rfl | h3
          · rw [h2]; simp
          · rw [hd.exists_of_dir h1 q h3]; simp
      · rename_i hm
        refine ⟨hd, hh, Grows.refl _, fun q hq => absurd rfl hq, fun h => (by cases h), fun q hq => .inl hq, ?_⟩
        refine ⟨fun h => (by cases h), ?_⟩
        rintro ⟨hc, h | h | h⟩
        · exact absurd h hnc
        · exfalso
          cases p with
          | nil => rw [hd.root] at h; cases h
          | cons c par =>
            have : par ∈ cache := by simpa [parentCached] using hpc
            exact hm (mkdir_eq_ok (hh par this par (List.suffix_refl _)) h)
        · rw [hpc] at h; cases h
    · rename_i hpc
      have hpc' : parentCached cache p = false := by simpa using hpc
      have hspec := createDirAll_spec hd p
      cases hc : createDirAll fs p with
      | none =>
        dsimp only
        refine ⟨hd, hh, Grows.refl _, fun q hq => absurd rfl hq, fun h => (by cases h), fun q hq => .inl hq, ?_⟩
        refine ⟨fun h => (by cases h), fun h => ?_⟩
        have := hspec.2.2 h.1
        rw [hc] at this; cases this
      | some fs' =>
        dsimp only
        obtain ⟨h1, h2, h3, h4⟩ := hspec.1 fs' hc
        refine ⟨h1, ?_, h2, h3, fun _ => ⟨h4, ?_⟩, ?_, ?_⟩
        · intro q hq
          rcases List.mem_append.1 hq with h5 | h5
          · have := mem_ancestors.1 (List.mem_reverse.1 h5)
            exact h1.exists_of_dir (h1.exists_of_dir h4 q this)
          · exact honest_grows hh h2 q h5
        · exact List.mem_append_left _ (List.mem_reverse.2 (mem_ancestors.2 (List.suffix_refl _)))
        · intro q hq
          rcases List.mem_append.1 hq with h5 | h5
          · exact .inr (mem_ancestors.1 (List.mem_reverse.1 h5))
          · exact .inl h5
        · exact ⟨fun _ => ⟨hspec.2.1 (by rw [hc]; rfl), .inr (.inr hpc')⟩, fun _ => rfl⟩

/-! ### a call as a thread, alone -/

/-- `n` steps of one call -/
def runN (p : Path) : Nat → Phase × FS × List Path → Phase × FS × List Path
  | 0, x => x
  | n + 1, x => runN p n (step x.2.1 x.2.2 p x.1)

theorem runN_add (p : Path) (m n : Nat) (x) : runN p (m + n) x = runN p n (runN p m x) := by
  induction m generalizing x with
  | zero => simp [runN]
  | succ m ih => rw [Nat.succ_add]; exact ih _

theorem run_trans {p : Path} {x y z} (h1 : ∃ n, runN p n x = y) (h2 : ∃ n, runN p n y = z) : ∃ n, runN p n x = z := by
  obtain ⟨m, rfl⟩ := h1
  obtain ⟨n, rfl⟩ := h2
  exact ⟨m + n, runN_add p m n x⟩

theorem run_one {p : Path} {ph : Phase} {fs : FS} {cache : List Path} {y} (h : step fs cache p ph = y) :
    ∃ n, runN p n (ph, fs, cache) = y := ⟨1, h⟩

theorem run_insert (p : Path) (fs : FS) (l cache : List Path) : ∃ n, runN p n (.insert l, fs, cache) = (.done, fs, l.reverse ++ cache) := by
  induction l generalizing cache with
  | nil => exact run_one rfl
  | cons q l ih =>
    refine run_trans (run_one rfl) ?_
    obtain ⟨n, hn⟩ := ih (q :: cache)
    exact ⟨n, by rw [show step fs cache p (.insert (q :: l)) = (.insert l, fs, q :: cache) from rfl, hn]; simp⟩

theorem run_up (p : Path) {fs : FS} (hd : Disk fs) (cache : List Path) (q : Path) (below : List Path) :
    ∃ n, runN p n (.up q below, fs, cache) = match createDirAll fs q with
      | some fs' => (.down below, fs', cache)
      | none => (.failed, fs, cache) := by
  induction q generalizing below with
  | nil => exact run_one rfl
  | cons c par ih =>
    cases hm : mkdir fs (c :: par) with
    | ok =>
      have e : createDirAll fs (c :: par) = some (put fs (c :: par) .dir) := by simp [createDirAll, hm]
      rw [e]
      exact run_one (by simp [step, hm])
    | other =>
      have e : createDirAll fs (c :: par) = if isDir fs (c :: par) then some fs else none := by simp [createDirAll, hm]
      rw [e]
      refine run_trans (run_one (by simp only [step, hm]; rfl)) (run_one ?_)
      simp only [step]
      split <;> rfl
    | notFound =>
      refine run_trans (run_one (by simp only [step, hm]; rfl)) (run_trans (ih _) ?_)
      cases hc : createDirAll fs par with
      | none =>
        have e : createDirAll fs (c :: par) = none := by simp [createDirAll, hm, hc]
        rw [e]
        exact ⟨0, rfl⟩
      | some fs' =>
        obtain ⟨h1, h2⟩ := createDirAll_notFound hd hm hc
        rw [h2]
        exact run_one (by simp [step, h1, mkdirFS])

theorem run_alone {fs : FS} (hd : Disk fs) (cache : List Path) (p : Path) :
    ∃ n, runN p n (.start, fs, cache) = (if (mkdirp fs cache p).1 then .done else .failed, (mkdirp fs cache p).2) := by
  unfold mkdirp
  split
  · rename_i h
    exact run_one (by simp [step, h])
  · rename_i h
    refine run_trans (run_one (by simp only [step, h, if_false]; rfl)) ?_
    split
    · rename_i hp
      refine run_trans (run_one (by simp only [step, hp, if_true]; rfl)) ?_
      split
      · rename_i hm
        refine run_trans (run_one (by simp only [step, hm, if_true, mkdirFS]; rfl)) ?_
        obtain ⟨n, hn⟩ := run_insert p (put fs p .dir) [p] cache
        exact ⟨n, by rw [hn]; rfl⟩
      · rename_i hm
        exact run_one (by simp [step, hm, mkdirFS])
    · rename_i hp
      refine run_trans (run_one (by simp only [step, hp]; rfl)) (run_trans (run_up p hd cache p []) ?_)
      cases hc : createDirAll fs p with
      | none => exact ⟨0, rfl⟩
      | some fs' =>
        refine run_trans (run_one rfl) ?_
        obtain ⟨n, hn⟩ := run_insert p fs' (ancestors p) cache
        exact ⟨n, by rw [show step fs' cache p (.down []) = (.insert (ancestors p), fs', cache) from rfl, hn]; rfl⟩

/-! ### threads -/

/-- `q` and then the paths of `l` lead down to `p` -/
def ChainTo (p : Path) : Path → List Path → Prop
  | q, [] => q = p
  | q, r :: l => (∃ c, r = c :: q) ∧ ChainTo p r l

theorem ChainTo.suffix {p : Path} : ∀ {l : List Path} {q : Path}, ChainTo p q l → q <:+ p
  | [], _, h => by rw [show _ = p from h]; exact List.suffix_refl _
  | r :: l, q, h => by
    obtain ⟨⟨c, rfl⟩, h2⟩ := h
    exact (List.suffix_cons _ _).trans h2.suffix

/-- what is known of a call under way -/
def Known (fs : FS) (cache : List Path) (p : Path) : Phase → Prop
  | .start => True
  | .checkParent => True
  | .create => parentCached cache p = true
  | .up q below => ChainTo p q below
  | .upCheck q below => ChainTo p q below ∧ ((fs q).isSome ∨ ∃ c par, q = c :: par ∧ fs par = some .file)
  | .down below => ∃ q, fs q = some .dir ∧ ChainTo p q below
  | .downCheck q below => ChainTo p q below ∧ (fs q).isSome
  | .insert l => fs p = some .dir ∧ ∀ q ∈ l, fs q = some .dir
  | .done => fs p = some .dir
  | .failed => (fs p = some .dir ∧ parentCached cache p = true) ∨ ¬ Clear fs p

theorem not_clear_grows {fs fs' : FS} (hg : Grows fs fs') {p : Path} (h : ¬ Clear fs p) : ¬ Clear fs' p := by
  intro hc
  apply h
  intro q hq he
  exact hc q hq (hg _ _ he)

theorem parentCached_mono {cache cache' : List Path} (hs : ∀ q ∈ cache, q ∈ cache') {p : Path} (h : parentCached cache p = true) :
    parentCached cache' p = true := by
  cases p with
  | nil => rfl
  | cons c par =>
    simp only [parentCached, decide_eq_true_eq] at h ⊢
    exact hs _ h

theorem isSome_grows {fs fs' : FS} (hg : Grows fs fs') {q : Path} (h : (fs q).isSome) : (fs' q).isSome := by
  obtain ⟨k, hk⟩ := Option.isSome_iff_exists.1 h
  rw [hg _ _ hk]; rfl

theorem Known.grows {fs fs' : FS} {cache cache' : List Path} (hg : Grows fs fs') (hs : ∀ q ∈ cache, q ∈ cache') {p : Path} {ph : Phase}
    (h : Known fs cache p ph) : Known fs' cache' p ph := by
  cases ph with
  | start => trivial
  | checkParent => trivial
  | create => exact parentCached_mono hs h
  | up q below => exact h
  | upCheck q below =>
    refine ⟨h.1, ?_⟩
    rcases h.2 with h2 | ⟨c, par, e, h2⟩
    · exact .inl (isSome_grows hg h2)
    · exact .inr ⟨c, par, e, hg _ _ h2⟩
  | down below =>
    obtain ⟨q, h1, h2⟩ := h
    exact ⟨q, hg _ _ h1, h2⟩
  | downCheck q below => exact ⟨h.1, isSome_grows hg h.2⟩
  | insert l => exact ⟨hg _ _ h.1, fun q hq => hg _ _ (h.2 q hq)⟩
  | done => exact hg _ _ h
  | failed =>
    rcases h with h | h
    · exact .inl ⟨hg _ _ h.1, parentCached_mono hs h.2⟩
    · exact .inr (not_clear_grows hg h)

/-- one step of a call keeps everything -/
theorem step_known {fs : FS} {cache : List Path} (hd : Disk fs) (hh : Honest fs cache) {p : Path} {ph : Phase} (hk : Known fs cache p ph) :
    Disk (step fs cache p ph).2.1 ∧ Honest (step fs cache p ph).2.1 (step fs cache p ph).2.2 ∧ Grows fs (step fs cache p ph).2.1 ∧
    (∀ q ∈ cache, q ∈ (step fs cache p ph).2.2) ∧
    Known (step fs cache p ph).2.1 (step fs cache p ph).2.2 p (step fs cache p ph).1 := by
  have hsub : ∀ q ∈ cache, q ∈ cache := fun _ h => h
  cases ph with
  | start =>
    refine ⟨hd, hh, Grows.refl _, hsub, ?_⟩
    simp only [step]
    split
    · rename_i h; exact hh p h p (List.suffix_refl _)
    · trivial
  | checkParent =>
    refine ⟨hd, hh, Grows.refl _, hsub, ?_⟩
    simp only [step]
    split
    · assumption
    · rfl
  | create =>
    have hg := grows_mkdirFS fs p
    refine ⟨disk_mkdirFS hd p, honest_grows hh hg, hg, hsub, ?_⟩
    simp only [step]
    split
    · rename_i hm
      have : mkdirFS fs p p = some .dir := by simp [mkdirFS, hm, put]
      refine ⟨this, ?_⟩
      intro q hq
      rw [List.mem_singleton.1 hq]; exact this
    · rename_i hm
      have e : mkdirFS fs p = fs := by simp [mkdirFS, hm]
      rw [e]
      cases hp : fs p with
      | some k =>
        cases k with
        | dir => exact .inl ⟨hp, hk⟩
        | file => exact .inr fun hc => hc p (List.suffix_refl _) hp
      | none =>
        exfalso
        cases p with
        | nil => rw [hd.root] at hp; cases hp
        | cons c par =>
          have : par ∈ cache := by simpa [Known, parentCached] using hk
          exact hm (mkdir_eq_ok (hh par this par (List.suffix_refl _)) hp)
  | up q below =>
    cases q with
    | nil => exact ⟨hd, hh, Grows.refl _, hsub, ⟨[], hd.root, hk⟩⟩
    | cons c par =>
      cases hm : mkdir fs (c :: par) with
      | ok =>
        obtain ⟨c', par', he, h1, h2⟩ := mkdir_ok hm
        cases he
        have hg := grows_put .dir h2
        simp only [step, hm]
        exact ⟨disk_put hd _ h2 h1, honest_grows hh hg, hg, hsub, ⟨c :: par, by simp [put], hk⟩⟩
      | notFound =>
        simp only [step, hm]
        exact ⟨hd, hh, Grows.refl _, hsub, ⟨⟨c, rfl⟩, hk⟩⟩
      | other =>
        simp only [step, hm]
        refine ⟨hd, hh, Grows.refl _, hsub, ⟨hk, ?_⟩⟩
        rcases mkdir_other hm with h | h
        · exact .inl h
        · exact .inr ⟨c, par, rfl, h⟩
  | upCheck q below =>
    refine ⟨hd, hh, Grows.refl _, hsub, ?_⟩
    simp only [step]
    split
    · rename_i h
      exact ⟨q, by simpa [isDir] using h, hk.1⟩
    · rename_i h
      refine .inr fun hc => ?_
      have hsuf := hk.1.suffix
      rcases hk.2 with h2 | ⟨c, par, rfl, h2⟩
      · cases hq : fs q with
        | none => rw [hq] at h2; cases h2
        | some k =>
          cases k with
          | dir => exact h (by simp [isDir, hq])
          | file => exact hc q hsuf hq
      · exact hc par ((List.suffix_cons _ _).trans hsuf) h2
  | down below =>
    obtain ⟨q, h1, h2⟩ := hk
    cases below with
    | nil =>
      have e : q = p := h2
      subst e
      refine ⟨hd, hh, Grows.refl _, hsub, ⟨h1, ?_⟩⟩
      intro r hr
      exact hd.exists_of_dir h1 r (mem_ancestors.1 hr)
    | cons r below =>
      obtain ⟨⟨c, rfl⟩, h3⟩ := h2
      have hg := grows_mkdirFS fs (c :: q)
      refine ⟨disk_mkdirFS hd _, honest_grows hh hg, hg, hsub, ?_⟩
      simp only [step]
      split
      · rename_i hm
        exact ⟨c :: q, by simp [mkdirFS, hm, put], h3⟩
      · rename_i hm
        refine ⟨h3, isSome_grows hg ?_⟩
        cases hx : fs (c :: q) with
        | none => exact absurd (mkdir_eq_ok h1 hx) hm
        | some k => rfl
  | downCheck q below =>
    refine ⟨hd, hh, Grows.refl _, hsub, ?_⟩
    simp only [step]
    split
    · rename_i h
      exact ⟨q, by simpa [isDir] using h, hk.1⟩
    · rename_i h
      refine .inr fun hc => ?_
      have h2 := hk.2
      cases hq : fs q with
      | none => rw [hq] at h2; cases h2
      | some k =>
        cases k with
        | dir => exact h (by simp [isDir, hq])
        | file => exact hc q hk.1.suffix hq
  | insert l =>
    cases l with
    | nil => exact ⟨hd, hh, Grows.refl _, hsub, hk.1⟩
    | cons q l =>
      refine ⟨hd, ?_, Grows.refl _, fun r hr => List.mem_cons_of_mem _ hr, ⟨hk.1, fun r hr => hk.2 r (List.mem_cons_of_mem _ hr)⟩⟩
      intro r hr
      rcases List.mem_cons.1 hr with rfl | h3
      · exact hd.exists_of_dir (hk.2 _ List.mem_cons_self)
      · exact hh r h3
  | done => exact ⟨hd, hh, Grows.refl _, hsub, hk⟩
  | failed => exact ⟨hd, hh, Grows.refl _, hsub, hk⟩

/-- what holds in every state -/
structure Inv (s : St) : Prop where
  disk : Disk s.fs
  honest : Honest s.fs s.cache
  known : ∀ t ∈ s.threads, Known s.fs s.cache t.1 t.2

theorem inv_step {s t : St} (h : Step s t) (hi : Inv s) : Inv t := by
  cases h with
  | call p =>
    refine ⟨hi.disk, hi.honest, ?_⟩
    intro t ht
    rcases List.mem_append.1 ht with h | h
    · exact hi.known t h
    · rw [List.mem_singleton.1 h]; trivial
  | thread i p ph h =>
    obtain ⟨h1, h2, h3, h4, h5⟩ := step_known hi.disk hi.honest (hi.known _ (List.mem_of_getElem? h))
    refine ⟨h1, h2, ?_⟩
    intro t ht
    rcases List.mem_or_eq_of_mem_set ht with h6 | rfl
    · exact (hi.known t h6).grows h3 h4
    · exact h5
  | other c par k hn hp =>
    have hg := grows_put k hn
    exact ⟨disk_put hi.disk k hn hp, honest_grows hi.honest hg, fun t ht => (hi.known t ht).grows hg fun _ h => h⟩

theorem inv_steps {s t : St} (h : Steps s t) (hi : Inv s) : Inv t := by
  induction h with
  | refl => exact hi
  | tail _ hs ih => exact inv_step hs ih

end Mkdirp
end Oro
