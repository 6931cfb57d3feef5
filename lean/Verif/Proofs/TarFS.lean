import Verif.Spec.Tarball
/-
Elementary facts about the modelled file system, and extraction as a sequence of elementary steps.
-/

set_option linter.unusedSectionVars false

namespace Oro
namespace Tar

theorem goTo_inside (dir l : Loc) (cs : List Comp) (h : StaysBelow l.length cs) :
    Inside dir (RPath.goTo (dir ++ l) cs) := by
  induction cs generalizing l with
  | nil => exact List.prefix_append _ _
  | cons c cs ih =>
    cases c with
    | root => exact absurd h (by simp [StaysBelow])
    | cur => exact ih l (by simpa only [StaysBelow] using h)
    | normal s =>
      simp only [RPath.goTo, List.append_assoc]
      exact ih (l ++ [s]) (by simpa [StaysBelow] using h)
    | parent =>
      rcases List.eq_nil_or_concat l with hl | ⟨l', a, hl⟩
      · subst hl; exact absurd h (by simp [StaysBelow])
      · simp only [List.concat_eq_append] at hl
        subst hl
        simp only [RPath.goTo]
        rw [← List.append_assoc, List.dropLast_concat]
        refine ih l' ?_
        simpa [StaysBelow] using h

theorem place_inside {dir es e} (hc : Contained es) (he : e ∈ es) (hr : e.regular = true) : Inside dir (place dir e) := by
  have := goTo_inside dir [] _ (hc e he hr)
  simpa [place] using this

theorem upd_self {α β : Type} [DecidableEq α] (f : α → β) (a : α) (b : β) : upd f a b a = b := by simp [upd]

theorem upd_ne {α β : Type} [DecidableEq α] (f : α → β) {a x : α} (b : β) (h : x ≠ a) : upd f a b x = f x := by
  simp [upd, h]

theorem verified_some {env fs h i} (hv : FS.verified env fs h = some i) :
    fs.store h = some i ∧ env.xxh (fs.content i) = h := by
  unfold FS.verified at hv
  split at hv
  · cases hv
  · split at hv
    · cases hv; exact ⟨by assumption, by assumption⟩
    · cases hv

theorem not_taken {fs : FS} {p} (h : fs.taken p = false) : fs.files p = none := by
  simp only [FS.taken, Bool.or_eq_false_iff, Option.isSome_eq_false_iff, Option.isNone_iff_eq_none] at h
  exact h.1

/-- how a file taken from the cache came to be -/
def Put (fs fs' : FS) (p : Loc) (i : Nat) (hard : Prop) : Prop :=
  (hard ∧ fs.files p = none ∧ ∃ mo, fs' = { fs with files := upd fs.files p (some i), mode := mo }) ∨
  (fs.files p = none ∧ ∃ mo, fs' = { fs.create p (fs.content i) with mode := mo }) ∨
  (∃ j, fs.files p = some j ∧ ∃ mo, fs' = { fs.overwrite i j with mode := mo })

theorem hardLink_put {env fs h p fs'} (hx : hardLink env fs h p = some fs') :
    ∃ i, fs.store h = some i ∧ env.xxh (fs.content i) = h ∧ fs.files p = none ∧
      fs' = { fs with files := upd fs.files p (some i) } := by
  unfold hardLink at hx
  split at hx
  · cases hx
  · rename_i i hv
    split at hx
    · rename_i ht
      cases hx
      simp only [Bool.and_eq_true, Bool.not_eq_true'] at ht
      exact ⟨i, (verified_some hv).1, (verified_some hv).2, not_taken ht.2, rfl⟩
    · cases hx

theorem reflink_put {env fs h p fs'} (hx : reflink env fs h p = some fs') :
    ∃ i, fs.store h = some i ∧ env.xxh (fs.content i) = h ∧ fs.files p = none ∧
      ∃ mo, fs' = { fs.create p (fs.content i) with mode := mo } := by
  unfold reflink at hx
  split at hx
  · cases hx
  · rename_i i hv
    split at hx
    · rename_i ht
      cases hx
      simp only [Bool.and_eq_true, Bool.not_eq_true'] at ht
      exact ⟨i, (verified_some hv).1, (verified_some hv).2, not_taken ht.2, _, rfl⟩
    · cases hx

theorem copyTo_put {env fs h p fs'} (hx : copyTo env fs h p = some fs') :
    ∃ i, fs.store h = some i ∧ env.xxh (fs.content i) = h ∧ Put fs fs' p i False := by
  unfold copyTo at hx
  split at hx
  · cases hx
  · rename_i i hv
    split at hx
    · cases hx
    · split at hx <;> cases hx
      · exact ⟨i, (verified_some hv).1, (verified_some hv).2, .inr (.inr ⟨_, by assumption, _, rfl⟩)⟩
      · exact ⟨i, (verified_some hv).1, (verified_some hv).2, .inr (.inl ⟨by assumption, _, rfl⟩)⟩

theorem linkFile_put {env m fs h p fs'} (hx : linkFile env m fs h p = some fs') :
    ∃ i, fs.store h = some i ∧ env.xxh (fs.content i) = h ∧ Put fs fs' p i (m.isCopy = false) := by
  have soft : ∀ {i}, Put fs fs' p i False → Put fs fs' p i (m.isCopy = false) := by
    rintro i (⟨hf, _⟩ | h)
    · exact hf.elim
    · exact .inr h
  have two : (reflink env fs h p).or (copyTo env fs h p) = some fs' →
      ∃ i, fs.store h = some i ∧ env.xxh (fs.content i) = h ∧ Put fs fs' p i (m.isCopy = false) := by
    intro hx
    rw [Option.or_eq_some_iff] at hx
    rcases hx with hx | ⟨_, hx⟩
    · obtain ⟨i, a, b, c, d⟩ := reflink_put hx; exact ⟨i, a, b, .inr (.inl ⟨c, d⟩)⟩
    · obtain ⟨i, a, b, c⟩ := copyTo_put hx; exact ⟨i, a, b, soft c⟩
  have three : m.isCopy = false → ((hardLink env fs h p).or (reflink env fs h p)).or (copyTo env fs h p) = some fs' →
      ∃ i, fs.store h = some i ∧ env.xxh (fs.content i) = h ∧ Put fs fs' p i (m.isCopy = false) := by
    intro hm hx
    rw [Option.or_assoc, Option.or_eq_some_iff] at hx
    rcases hx with hx | ⟨_, hx⟩
    · obtain ⟨i, a, b, c, d⟩ := hardLink_put hx; exact ⟨i, a, b, .inl ⟨hm, c, _, d⟩⟩
    · exact two hx
  cases m with
  | auto => exact two hx
  | reflink => exact two hx
  | copy => obtain ⟨i, a, b, c⟩ := copyTo_put hx; exact ⟨i, a, b, soft c⟩
  | autoHardlink => exact three rfl hx
  | hardlink => exact three rfl hx

theorem put_mode {fs fs' : FS} {p i H mo} (h : Put fs fs' p i H) : Put fs { fs' with mode := mo } p i H := by
  rcases h with ⟨a, b, _, rfl⟩ | ⟨b, _, rfl⟩ | ⟨j, hj, _, rfl⟩
  · exact .inl ⟨a, b, mo, rfl⟩
  · exact .inr (.inl ⟨b, mo, rfl⟩)
  · exact .inr (.inr ⟨j, hj, mo, rfl⟩)

theorem chmod_eq (fs : FS) (p : Loc) (m : Nat) : ∃ mo, fs.chmod p m = { fs with mode := mo } := by
  unfold FS.chmod
  split
  · exact ⟨fs.mode, rfl⟩
  · exact ⟨_, rfl⟩

theorem extractFile_put {env m fs h p fs'} (hx : extractFile env m fs h p = some fs') :
    ∃ i, fs.store h.1 = some i ∧ env.xxh (fs.content i) = h.1 ∧ Put fs fs' p i (m.isCopy = false) := by
  simp only [extractFile, Option.map_eq_some_iff] at hx
  obtain ⟨fs1, h1, h2⟩ := hx
  obtain ⟨i, a, b, c⟩ := linkFile_put h1
  refine ⟨i, a, b, ?_⟩
  split at h2
  · exact h2 ▸ c
  · obtain ⟨mo, e⟩ := chmod_eq fs1 p h.2
    rw [e] at h2
    exact h2 ▸ put_mode c

theorem put_present {fs fs' p i H} (h : Put fs fs' p i H) : (fs'.files p).isSome := by
  rcases h with ⟨_, _, mo, rfl⟩ | ⟨_, mo, rfl⟩ | ⟨j, hj, mo, rfl⟩
  · simp [upd]
  · simp [FS.create, upd]
  · simp [FS.overwrite, hj]

theorem put_present_mono {fs fs' p i H q} (h : Put fs fs' p i H) (hq : (fs.files q).isSome) : (fs'.files q).isSome := by
  rcases h with ⟨_, _, mo, rfl⟩ | ⟨_, mo, rfl⟩ | ⟨j, hj, mo, rfl⟩
  · by_cases e : q = p <;> simp [upd, e, hq]
  · by_cases e : q = p <;> simp [FS.create, upd, e, hq]
  · simp [FS.overwrite, hq]

theorem createDir_eq {fs p fs'} (h : createDir fs p = some fs') : ∃ d, fs' = { fs with dirs := d } := by
  unfold createDir at h
  split at h
  · cases h
  · cases h; exact ⟨_, rfl⟩

theorem createDirAll_eq {fs p fs'} (h : createDirAll fs p = some fs') : ∃ d, fs' = { fs with dirs := d } := by
  unfold createDirAll at h
  split at h
  · cases h
  · cases h; exact ⟨_, rfl⟩

theorem mkdirp_eq {c fs p c' fs'} (h : mkdirp c fs p = some (c', fs')) : ∃ d, fs' = { fs with dirs := d } := by
  unfold mkdirp at h
  split at h
  · cases h; exact ⟨fs.dirs, rfl⟩
  · split at h
    · simp only [Option.map_eq_some_iff, Prod.mk.injEq] at h
      obtain ⟨a, ha, _, rfl⟩ := h
      exact createDir_eq ha
    · simp only [Option.map_eq_some_iff, Prod.mk.injEq] at h
      obtain ⟨a, ha, _, rfl⟩ := h
      exact createDirAll_eq ha

/-- The elementary changes an extraction of the archive entries `es` into `dir` makes. -/
inductive Step (env : Env) (dir : Loc) (es : List Entry) : FS → FS → Prop
  | dirs (fs : FS) (d : Loc → Bool) : Step env dir es fs { fs with dirs := d }
  | commit (fs : FS) (c : Bytes) : Step env dir es fs (commit env fs c)
  | put (fs fs' : FS) (e : Entry) (hard : Prop) (he : e ∈ es) (hr : e.regular = true)
      (hp : Put (Tar.commit env fs e.content) fs' (place dir e) fs.next hard) : Step env dir es fs fs'
  | remove (fs : FS) (e : Entry) (he : e ∈ es) (hr : e.regular = true) :
      Step env dir es fs { fs with files := upd fs.files (place dir e) none }
  | redo (fs : FS) (e : Entry) (i : Nat) (mo : Nat → Nat) (he : e ∈ es) (hr : e.regular = true) (hf : fs.files (place dir e) = none)
      (hs : fs.store (env.xxh e.content) = some i) (hx : env.xxh (fs.content i) = env.xxh e.content) :
      Step env dir es fs { fs.create (place dir e) (fs.content i) with mode := mo }
  | plain (fs : FS) (e : Entry) (mo : Nat → Nat) (he : e ∈ es) (hr : e.regular = true) (hf : fs.files (place dir e) = none) :
      Step env dir es fs { fs.create (place dir e) e.content with mode := mo }
  | modes (fs : FS) (mo : Nat → Nat) : Step env dir es fs { fs with mode := mo }

inductive Steps (env : Env) (dir : Loc) (es : List Entry) : FS → FS → Prop
  | refl (fs : FS) : Steps env dir es fs fs
  | tail {a b c : FS} : Steps env dir es a b → Step env dir es b c → Steps env dir es a c

theorem Steps.trans {env dir es a b c} (h1 : Steps env dir es a b) (h2 : Steps env dir es b c) :
    Steps env dir es a c := by
  induction h2 with
  | refl => exact h1
  | tail _ s ih => exact .tail ih s

theorem Steps.one {env dir es a b} (h : Step env dir es a b) : Steps env dir es a b := .tail (.refl _) h

/-- an invariant of the steps -/
theorem Steps.inv {env dir es a b} (P : FS → Prop) (hP : ∀ x y, P x → Step env dir es x y → P y)
    (h : Steps env dir es a b) (ha : P a) : P b := by
  induction h with
  | refl => exact ha
  | tail _ s ih => exact hP _ _ ih s

theorem commit_store (env : Env) (fs : FS) (c : Bytes) : (commit env fs c).store (env.xxh c) = some fs.next := by
  simp [commit, upd]

theorem commit_content (env : Env) (fs : FS) (c : Bytes) : (commit env fs c).content fs.next = c := by
  simp [commit, upd]

/-- keys of the index built so far belong to entries -/
def FromEntries (env : Env) (es : List Entry) (fl : List (List Comp × (Str × Nat))) : Prop :=
  ∀ kh ∈ fl, ∃ e ∈ es, e.regular = true ∧ subpath e = kh.1 ∧ env.xxh e.content = kh.2.1

theorem remove_eq {fs : FS} {p fs'} (h : fs.remove p = some fs') :
    fs' = { fs with files := upd fs.files p none } := by
  unfold FS.remove at h
  split at h
  · cases h; rfl
  · cases h

theorem reExtract_steps {env dir es} (l : List (List Comp × (Str × Nat))) (hl : FromEntries env es l) (fs : FS) :
    (∀ fs', reExtract env dir l fs = .ok fs' → Steps env dir es fs fs') ∧
    (∀ fs', reExtract env dir l fs = .error fs' → Steps env dir es fs fs') := by
  induction l generalizing fs with
  | nil => simp only [reExtract, Except.ok.injEq, reduceCtorEq, false_implies, implies_true, and_true]
           rintro fs' rfl; exact .refl _
  | cons kh r ih =>
    obtain ⟨k, h⟩ := kh
    have ih := ih (fun x hx => hl x (List.mem_cons_of_mem _ hx))
    obtain ⟨e, he, hr, hk, hh⟩ := hl (k, h) (List.mem_cons_self ..)
    simp only at hk hh
    have hpl : RPath.goTo dir k = place dir e := by rw [← hk]; rfl
    simp only [reExtract, hpl]
    cases h1 : fs.remove (place dir e) with
    | none => exact ⟨fun _ h => (by cases h), fun _ h => by cases h; exact .refl _⟩
    | some fs1 =>
      have e1 := remove_eq h1
      have s1 : Steps env dir es fs fs1 := by rw [e1]; exact .one (.remove fs e he hr)
      simp only
      cases h2 : extractFile env .auto fs1 h (place dir e) with
      | none => exact ⟨fun _ h => (by cases h), fun _ h => by cases h; exact s1⟩
      | some fs2 =>
        simp only
        have s2 : Steps env dir es fs fs2 := by
          obtain ⟨i, hs, hx, hp⟩ := extractFile_put h2
          have hn : fs1.files (place dir e) = none := by rw [e1]; simp [upd]
          rcases hp with ⟨hm, _⟩ | ⟨_, mo, rfl⟩ | ⟨j, hj, _⟩
          · simp [Mode.isCopy] at hm
          · exact s1.tail (.redo fs1 e i _ he hr hn (hh ▸ hs) (hx.trans hh.symm))
          · rw [hn] at hj; cases hj
        exact ⟨fun fs' h => s2.trans ((ih fs2).1 fs' h), fun fs' h => s2.trans ((ih fs2).2 fs' h)⟩

/-- the file system after an extraction loop, whether it failed or not -/
def endFS : Except FS XSt → FS
  | .ok s => s.fs
  | .error fs => fs

/-- the files of the index built so far, if any, come from entries -/
def GoodIdx (env : Env) (es : List Entry) : Except FS XSt → Prop
  | .ok s => FromEntries env es s.idx.files
  | .error _ => True

theorem perm_from {env es l l'} (h : FromEntries env es l) (hp : l'.Perm l) : FromEntries env es l' :=
  fun x hx => h x (hp.mem_iff.1 hx)

theorem onScripts_steps {env : Env} {dir es m s} (ho : ∀ f, (env.ord f).Perm f) (hi : FromEntries env es s.idx.files) :
    Steps env dir es s.fs (endFS (onScripts env dir m s)) ∧ GoodIdx env es (onScripts env dir m s) := by
  unfold onScripts
  split
  · split
    · exact ⟨.refl _, hi⟩
    · have := reExtract_steps (dir := dir) (env.ord s.idx.files) (perm_from hi (ho _)) s.fs
      split <;> rename_i h
      · exact ⟨this.2 _ h, trivial⟩
      · exact ⟨this.1 _ h, hi⟩
  · exact ⟨.refl _, hi⟩

theorem onManifest_steps {env : Env} {dir es p s} (ho : ∀ f, (env.ord f).Perm f) (hi : FromEntries env es s.idx.files) :
    Steps env dir es s.fs (endFS (onManifest env dir p s)) ∧ GoodIdx env es (onManifest env dir p s) := by
  unfold onManifest
  split
  · exact ⟨.refl _, trivial⟩
  · rename_i m _
    have := onScripts_steps (dir := dir) (m := m) ho hi
    split <;> rename_i h <;> rw [h] at this
    · exact ⟨this.1, trivial⟩
    · exact ⟨this.1, this.2⟩

theorem remember_from {env es e s} (he : e ∈ es) (hr : e.regular = true) (h : FromEntries env es s.idx.files) :
    FromEntries env es (remember env e s).idx.files := by
  intro x hx
  rcases IMap.mem_insert hx with rfl | hx
  · exact ⟨e, he, hr, rfl, rfl⟩
  · exact h x hx

theorem putCached_steps {env : Env} {dir es e s} (ho : ∀ f, (env.ord f).Perm f) (he : e ∈ es) (hr : e.regular = true)
    (hi : FromEntries env es s.idx.files) :
    Steps env dir es s.fs (endFS (putCached env dir e s)) ∧ GoodIdx env es (putCached env dir e s) := by
  unfold putCached
  simp only
  split
  · exact ⟨.one (.commit _ _), trivial⟩
  · rename_i fs1 h1
    obtain ⟨i, hs, hx, hp⟩ := extractFile_put h1
    rw [commit_store] at hs
    cases hs
    have s1 : Steps env dir es s.fs fs1 := .one (.put s.fs fs1 e _ he hr hp)
    split
    · have := onManifest_steps (dir := dir) (p := RPath.goTo dir (subpath e)) (s := { s with fs := fs1 }) ho hi
      split <;> rename_i h <;> rw [h] at this
      · exact ⟨s1.trans this.1, trivial⟩
      · exact ⟨s1.trans this.1, remember_from he hr this.2⟩
    · exact ⟨s1, remember_from he hr hi⟩

theorem extractEntry_steps {env : Env} {dir es cache e s} (ho : ∀ f, (env.ord f).Perm f) (he : e ∈ es)
    (hi : FromEntries env es s.idx.files) :
    Steps env dir es s.fs (endFS (extractEntry env dir cache s e)) ∧ GoodIdx env es (extractEntry env dir cache s e) := by
  unfold extractEntry
  split
  · rename_i hr
    split
    · exact ⟨.refl _, trivial⟩
    · rename_i created fs1 h1
      obtain ⟨d, rfl⟩ := mkdirp_eq h1
      have s1 : Steps env dir es s.fs { s.fs with dirs := d } := .one (.dirs _ _)
      split
      · have := putCached_steps (dir := dir) (s := { s with created := created, fs := { s.fs with dirs := d } }) ho he hr hi
        exact ⟨s1.trans this.1, this.2⟩
      · unfold putPlain
        simp only
        split
        · exact ⟨s1, trivial⟩
        · rename_i ht
          exact ⟨s1.tail (.plain _ e _ he hr (not_taken (Bool.eq_false_iff.2 ht))), hi⟩
  · exact ⟨.refl _, hi⟩

theorem extractEntries_steps {env : Env} {dir es cache} (ho : ∀ f, (env.ord f).Perm f) (l : List Entry) (s : XSt)
    (hl : ∀ e ∈ l, e ∈ es) (hi : FromEntries env es s.idx.files) :
    Steps env dir es s.fs (endFS (extractEntries env dir cache l s)) ∧
      GoodIdx env es (extractEntries env dir cache l s) := by
  induction l generalizing s with
  | nil => exact ⟨.refl _, hi⟩
  | cons e r ih =>
    have h1 := extractEntry_steps (dir := dir) (cache := cache) (s := s) ho (hl e (List.mem_cons_self ..)) hi
    simp only [extractEntries]
    split <;> rename_i h <;> rw [h] at h1
    · exact ⟨h1.1, trivial⟩
    · have := ih _ (fun x hx => hl x (List.mem_cons_of_mem _ hx)) h1.2
      exact ⟨h1.1.trans this.1, this.2⟩

/-- what the end of an extraction adds to the cache's index -/
def Recorded (cache : Bool) (r : Option Integrity) (idx : Index) (fs1 fs' : FS) : Prop :=
  (r = none ∧ fs' = fs1) ∨ (∃ k, r = some k ∧ cache = false ∧ fs' = fs1) ∨
  (∃ k, r = some k ∧ cache = true ∧ fs' = { fs1 with index := upd fs1.index k (some (.good idx)) })

theorem setBinMode_eq {fs : FS} {p fs'} (h : setBinMode fs p = some fs') : ∃ mo, fs' = { fs with mode := mo } := by
  unfold setBinMode at h
  split at h
  · cases h; exact ⟨_, rfl⟩
  · split at h
    · cases h; exact ⟨fs.mode, rfl⟩
    · cases h

theorem setBinModes_eq {dir} (l : List Str) (fs : FS) :
    (∀ fs', setBinModes dir l fs = .ok fs' → ∃ mo, fs' = { fs with mode := mo }) ∧
    (∀ fs', setBinModes dir l fs = .error fs' → ∃ mo, fs' = { fs with mode := mo }) := by
  induction l generalizing fs with
  | nil => exact ⟨fun _ h => by cases h; exact ⟨fs.mode, rfl⟩, fun _ h => (by cases h)⟩
  | cons b r ih =>
    simp only [setBinModes]
    cases h1 : setBinMode fs (RPath.goTo dir (RPath.components b)) with
    | none => exact ⟨fun _ h => (by cases h), fun _ h => by cases h; exact ⟨fs.mode, rfl⟩⟩
    | some fs1 =>
      obtain ⟨mo, rfl⟩ := setBinMode_eq h1
      simp only
      refine ⟨fun fs' h => ?_, fun fs' h => ?_⟩
      · obtain ⟨mo', e⟩ := (ih _).1 fs' h; exact ⟨mo', e⟩
      · obtain ⟨mo', e⟩ := (ih _).2 fs' h; exact ⟨mo', e⟩

theorem finish_rec {env : Env} {dir cache ex b s} :
    ∃ mo, Recorded cache (finish env dir cache ex b s).1 { s.idx with binPaths := s.idx.binPaths ++ Mani.binsOf s.mani }
      { s.fs with mode := mo } (finish env dir cache ex b s).2 := by
  unfold finish
  have := setBinModes_eq (dir := dir) (Mani.binsOf s.mani) s.fs
  split <;> rename_i fs1 h
  · obtain ⟨mo, rfl⟩ := this.2 _ h
    exact ⟨mo, .inl ⟨rfl, rfl⟩⟩
  · obtain ⟨mo, rfl⟩ := this.1 _ h
    refine ⟨mo, ?_⟩
    cases cache
    · exact .inr (.inl ⟨_, rfl, rfl, rfl⟩)
    · exact .inr (.inr ⟨_, rfl, rfl, rfl⟩)

/-- Extraction of a tarball is a sequence of elementary steps on its entries, followed by an entry in the index. -/
theorem extractTemp_steps {env : Env} {dir cache ex mode b fs} (ho : ∀ f, (env.ord f).Perm f) :
    ∃ fs1 idx, Steps env dir (env.untar b).1 fs fs1 ∧
      Recorded cache (extractTemp env dir cache ex mode b fs).1 idx fs1 (extractTemp env dir cache ex mode b fs).2 := by
  unfold extractTemp
  split
  · exact ⟨fs, ⟨false, [], []⟩, .refl _, .inl ⟨rfl, rfl⟩⟩
  · rename_i created fs1 h1
    obtain ⟨d, rfl⟩ := mkdirp_eq h1
    have s1 : Steps env dir (env.untar b).1 fs { fs with dirs := d } := .one (.dirs _ _)
    have := extractEntries_steps (dir := dir) (cache := cache) ho (env.untar b).1
      ⟨{ fs with dirs := d }, created, mode, ⟨false, [], []⟩, none⟩ (fun _ h => h) (by intro x hx; cases hx)
    split <;> rename_i h <;> rw [h] at this
    · exact ⟨_, ⟨false, [], []⟩, s1.trans this.1, .inl ⟨rfl, rfl⟩⟩
    · split
      · obtain ⟨mo, hrec⟩ := finish_rec (env := env) (dir := dir) (cache := cache) (ex := ex) (b := b) (s := ‹XSt›)
        exact ⟨_, _, (s1.trans this.1).tail (.modes _ mo), hrec⟩
      · exact ⟨_, ⟨false, [], []⟩, s1.trans this.1, .inl ⟨rfl, rfl⟩⟩

/-- A successful extraction in terms of its loop. -/
theorem extractTemp_some {env : Env} {dir cache ex mode b fs k fs'}
    (h : extractTemp env dir cache ex mode b fs = (some k, fs')) :
    ∃ d created s, extractEntries env dir cache (env.untar b).1
        ⟨{ fs with dirs := d }, created, mode, ⟨false, [], []⟩, none⟩ = .ok s ∧ (env.untar b).2 = true ∧
      k = ex.getD (env.sri b) ∧
      ∃ fs1, setBinModes dir (Mani.binsOf s.mani) s.fs = .ok fs1 ∧
      fs' = recordIndex cache k { s.idx with binPaths := s.idx.binPaths ++ Mani.binsOf s.mani } fs1 := by
  unfold extractTemp at h
  split at h
  · cases h
  · rename_i created fs1 h1
    obtain ⟨d, rfl⟩ := mkdirp_eq h1
    split at h <;> rename_i h2
    · cases h
    · split at h
      · rename_i hu
        unfold finish at h
        split at h
        · cases h
        · rename_i fs1 h3
          cases h
          exact ⟨d, created, _, h2, hu, rfl, _, h3, rfl⟩
      · cases h

theorem step_index {env dir es a b} (s : Step env dir es a b) : b.index = a.index := by
  cases s with
  | dirs => rfl
  | commit => rfl
  | put _ e H he hr hp => rcases hp with ⟨_, _, mo, rfl⟩ | ⟨_, mo, rfl⟩ | ⟨j, hj, mo, rfl⟩ <;> rfl
  | remove => rfl
  | redo => rfl
  | plain => rfl
  | modes => rfl

end Tar
end Oro
