import Verif.Spec.TarRun
import Verif.Proofs.TarMain
/-
Extractions at the same time: what a step does, and the invariant.
-/

set_option linter.unusedSectionVars false
set_option linter.unusedTactic false

namespace Oro
namespace Tar

/-! ### What one extraction may do to the others -/

/-- the files at the places of an archive's files are the right ones, up to collisions -/
def Right (env : Env) (dir : Loc) (es : List Entry) (fs : FS) : Prop :=
  ∀ e ∈ es, e.regular = true → ∀ k, fs.files (place dir e) = some k → env.xxh (fs.content k) = env.xxh e.content

/-- what a step of an extraction of `es` into `dir` changes -/
structure Does (env : Env) (dir : Loc) (es : List Entry) (a b : FS) : Prop where
  sane : Sane b
  next : a.next ≤ b.next
  files : ∀ p, (∀ e ∈ es, e.regular = true → place dir e ≠ p) → b.files p = a.files p
  store : ∀ h i, b.store h = some i → a.store h = some i ∨ a.next ≤ i
  content : ∀ k, k < a.next → env.xxh (b.content k) = env.xxh (a.content k)
  right : Right env dir es b

theorem Does.same {env dir es} {a b : FS} (hs : Sane a) (hr : Right env dir es a) (hn : b.next = a.next) (hf : b.files = a.files)
    (hst : b.store = a.store) (hc : b.content = a.content) : Does env dir es a b where
  sane := by
    refine ⟨fun p i h => ?_, fun p i h => ?_⟩
    · rw [hn]; exact hs.1 p i (hf ▸ h)
    · rw [hn]; exact hs.2 p i (hst ▸ h)
  next := Nat.le_of_eq hn.symm
  files p _ := by rw [hf]
  store h i hx := .inl (hst ▸ hx)
  content k _ := by rw [hc]
  right e he hreg k hk := by rw [hc]; exact hr e he hreg k (hf ▸ hk)

theorem Does.refl {env dir es a} (hs : Sane a) (hr : Right env dir es a) : Does env dir es a a :=
  .same hs hr rfl rfl rfl rfl

theorem does_dirs {env dir es} {a : FS} {d} (hs : Sane a) (hr : Right env dir es a) : Does env dir es a { a with dirs := d } :=
  .same hs hr rfl rfl rfl rfl

theorem does_mode {env dir es} {a : FS} {d} (hs : Sane a) (hr : Right env dir es a) : Does env dir es a { a with mode := d } :=
  .same hs hr rfl rfl rfl rfl

theorem does_index {env dir es} {a : FS} {d} (hs : Sane a) (hr : Right env dir es a) : Does env dir es a { a with index := d } :=
  .same hs hr rfl rfl rfl rfl

theorem does_mkdirp {env dir es} {a b : FS} {c p c'} (hs : Sane a) (hr : Right env dir es a)
    (h : mkdirp c a p = some (c', b)) : Does env dir es a b := by
  obtain ⟨d, rfl⟩ := mkdirp_eq h; exact does_dirs hs hr

theorem does_commit {env dir es} {a : FS} {c} (hs : Sane a) (hr : Right env dir es a) : Does env dir es a (commit env a c) where
  sane := sane_commit hs
  next := by simp only [commit]; omega
  files _ _ := rfl
  store h i hx := by
    simp only [commit, upd] at hx
    split at hx
    · cases hx; exact .inr (Nat.le_refl _)
    · exact .inl hx
  content k hk := by
    have : k ≠ a.next := by omega
    simp only [commit, upd_ne _ _ this]
  right e he hreg k hk := by
    have := hs.1 _ _ hk
    simp only [commit, upd]
    rw [if_neg (by omega)]
    exact hr e he hreg k hk

theorem does_evict {env dir es} {a b : FS} {i} (hs : Sane a) (hr : Right env dir es a) (h : evict i a = some b) :
    Does env dir es a b := by
  have hsb := evict_sane hs h
  obtain ⟨hf, hc⟩ := evict_files h
  have hn : b.next = a.next ∧ ∀ x k, b.store x = some k → a.store x = some k := by
    unfold evict at h
    split at h
    · cases h; exact ⟨rfl, fun _ _ h => h⟩
    · rename_i e _
      cases e with
      | broken => cases h
      | good idx' =>
        simp only [clean, Option.some.injEq] at h; subst h
        refine ⟨rfl, fun x k hx => ?_⟩
        simp only at hx
        split at hx
        · cases hx
        · exact hx
  exact ⟨hsb, Nat.le_of_eq hn.1.symm, fun _ _ => by rw [hf], fun x k hx => .inl (hn.2 x k hx), fun _ _ => by rw [hc],
    fun e he hreg k hk => by rw [hc]; exact hr e he hreg k (hf ▸ hk)⟩

theorem does_create {env dir es} {a : FS} {e : Entry} {c : Bytes} {mo} (hs : Sane a) (hd : Distinct dir es) (hr : Right env dir es a)
    (he : e ∈ es) (hreg : e.regular = true) (hx : env.xxh c = env.xxh e.content) :
    Does env dir es a { a.create (place dir e) c with mode := mo } where
  sane := sane_create (c := []) hs
  next := by simp only [FS.create]; omega
  files p hp := by
    have : p ≠ place dir e := fun h => hp e he hreg h.symm
    simp only [FS.create, upd_ne _ _ this]
  store h i hx := .inl hx
  content k hk := by
    have : k ≠ a.next := by omega
    simp only [FS.create, upd_ne _ _ this]
  right e' he' hreg' k hk := by
    simp only [FS.create, upd] at hk ⊢
    split at hk
    · rename_i hpe
      cases hk
      rw [if_pos rfl, hx, hd e' he' hreg' e he hreg hpe]
    · have := hs.1 _ _ hk
      rw [if_neg (by omega)]
      exact hr e' he' hreg' k hk

theorem does_remove {env dir es} {a : FS} {e : Entry} (hs : Sane a) (hr : Right env dir es a) (he : e ∈ es) (hreg : e.regular = true) :
    Does env dir es a { a with files := upd a.files (place dir e) none } where
  sane := by
    refine ⟨fun q k hq => ?_, hs.2⟩
    simp only [upd] at hq
    split at hq
    · cases hq
    · exact hs.1 q k hq
  next := Nat.le_refl _
  files p hp := by
    have : p ≠ place dir e := fun h => hp e he hreg h.symm
    simp only [upd_ne _ _ this]
  store h i hx := .inl hx
  content _ _ := rfl
  right e' he' hreg' k hk := by
    simp only [upd] at hk
    split at hk
    · cases hk
    · exact hr e' he' hreg' k hk

/-- a file out of the cache, at its place, where the cache's file is not already -/
theorem does_put {env dir es} {a b : FS} {e : Entry} {i H} (hs : Sane a) (hd : Distinct dir es) (hr : Right env dir es a)
    (he : e ∈ es) (hreg : e.regular = true) (hi : i < a.next) (hx : env.xxh (a.content i) = env.xxh e.content)
    (hne : ∀ k, a.files (place dir e) = some k → k ≠ i) (hp : Put a b (place dir e) i H) : Does env dir es a b := by
  have hsb := sane_put hs hi hp
  rcases hp with ⟨_, hv, mo, rfl⟩ | ⟨_, mo, rfl⟩ | ⟨j, hj, mo, rfl⟩
  · exact {
      sane := hsb
      next := Nat.le_refl _
      files := fun p hp => by
        have : p ≠ place dir e := fun h => hp e he hreg h.symm
        simp only [upd_ne _ _ this]
      store := fun h i hx => .inl hx
      content := fun _ _ => rfl
      right := fun e' he' hreg' k hk => by
        simp only [upd] at hk
        split at hk
        · rename_i hpe
          cases hk
          simp only
          rw [hx, hd e' he' hreg' e he hreg hpe]
        · exact hr e' he' hreg' k hk }
  · exact does_create hs hd hr he hreg hx
  · have hij : i ≠ j := fun h => hne j hj h.symm
    have hcj : env.xxh (a.content j) = env.xxh e.content := hr e he hreg j hj
    have hcont : ∀ k, env.xxh ((a.overwrite i j).content k) = env.xxh (a.content k) := by
      intro k
      simp only [FS.overwrite, upd]
      split
      · rename_i hk
        rw [hk, hcj, ← hx]
      · rfl
    exact {
      sane := hsb
      next := Nat.le_refl _
      files := fun _ _ => rfl
      store := fun h i hx => .inl hx
      content := fun k _ => hcont k
      right := fun e' he' hreg' k hk => (hcont k).trans (hr e' he' hreg' k hk) }

theorem does_extractFile {env dir es} {a b : FS} {e : Entry} {m : Mode} {h} (hs : Sane a) (hd : Distinct dir es)
    (hr : Right env dir es a) (he : e ∈ es) (hreg : e.regular = true) (hh : env.xxh e.content = h.1)
    (hne : ∀ k, a.files (place dir e) = some k → a.store h.1 ≠ some k)
    (hx : extractFile env m a h (place dir e) = some b) :
    Does env dir es a b ∧ (b.files (place dir e)).isSome ∧ (∀ q, (a.files q).isSome → (b.files q).isSome) ∧
      (∀ q, q ≠ place dir e → b.files q = a.files q) ∧ b.index = a.index := by
  obtain ⟨i, hst, hxx, hp⟩ := extractFile_put hx
  refine ⟨does_put hs hd hr he hreg (hs.2 _ _ hst) (hxx.trans hh.symm) (fun k hk h => hne k hk (h ▸ hst)) hp, put_present hp,
    fun q hq => put_present_mono hp hq, fun q hq => ?_, put_index hp⟩
  rcases hp with ⟨_, _, mo, rfl⟩ | ⟨_, mo, rfl⟩ | ⟨j, hj, mo, rfl⟩
  · simp only [upd_ne _ _ hq]
  · simp only [FS.create, upd_ne _ _ hq]
  · rfl

/-! ### The invariant -/

/-- the cache's index is honest about files, and (if `G`) about the rest -/
def HonestF (G : Prop) (env : Env) (fs : FS) : Prop :=
  ∀ k idx, fs.index k = some (.good idx) → ∃ t, Matches env.digest k t ∧ (env.untar t).2 = true ∧
    idx.files = listing env (env.untar t).1 [] ∧ (G → idx.binPaths = commands env (env.untar t).1 ∧
      (HasScripts env (env.untar t).1 → idx.shouldCopy = true))

/-- the files of some entries are there -/
def Pres (dir : Loc) (es : List Entry) (fs : FS) : Prop := ∀ e ∈ es, e.regular = true → (fs.files (place dir e)).isSome

/-- the bookkeeping after some entries -/
def Kept (G : Prop) (env : Env) (pre : List Entry) (s : Book) : Prop :=
  s.idx.files = listing env pre [] ∧ (G → s.idx.binPaths = [] ∧ s.mani = manifestOf env pre none ∧
    ((∃ e ∈ pre, IsScripts env e) → s.idx.shouldCopy = true))

/-- in the middle of an archive -/
def Amid (env : Env) (j : Job) (t b : Bytes) (pre todo : List Entry) (fs : FS) : Prop :=
  b = t ∧ j.Fits env b ∧ (env.untar t).1 = pre ++ todo ∧ Pres j.dir pre fs

/-- in the middle of the files of a cached package -/
def AmidFiles (env : Env) (dir : Loc) (es : List Entry) (todo : Files) (fs : FS) : Prop :=
  FromEntries env es todo ∧ (todo.Pairwise fun a b => RPath.goTo dir a.1 ≠ RPath.goTo dir b.1) ∧
  (∀ kh ∈ todo, fs.files (RPath.goTo dir kh.1) = none) ∧
  (∀ e ∈ es, e.regular = true → (fs.files (place dir e)).isSome ∨ ∃ kh ∈ todo, kh.1 = subpath e)

/-- what is known where an extraction of the tarball `t` stands -/
def PCInv (G : Prop) (env : Env) (j : Job) (t : Bytes) (pc : PC) (fs : FS) : Prop :=
  match pc with
  | .start => ∀ e ∈ (env.untar t).1, e.regular = true → fs.files (place j.dir e) = none
  | .linkDir _ todo _ => AmidFiles env j.dir (env.untar t).1 todo fs
  | .link _ k h todo _ => AmidFiles env j.dir (env.untar t).1 ((k, h) :: todo) fs
  | .evict | .fetch _ | .failed => True
  | .folder _ b => b = t ∧ j.Fits env b
  | .entry cache b todo s => ∃ pre, Amid env j t b pre todo fs ∧ (cache = true → Kept G env pre s)
  | .plain b e todo _ => ∃ pre, Amid env j t b pre (e :: todo) fs ∧ e.regular = true
  | .commit b e todo s => ∃ pre, Amid env j t b pre (e :: todo) fs ∧ e.regular = true ∧ Kept G env pre s
  | .write b e todo s => ∃ pre, Amid env j t b pre (e :: todo) fs ∧ e.regular = true ∧ Kept G env pre s ∧
      ∀ k, fs.files (place j.dir e) = some k → fs.store (env.xxh e.content) ≠ some k
  | .manifest b e todo s => ∃ pre, Amid env j t b pre (e :: todo) fs ∧ e.regular = true ∧ Kept G env pre s ∧
      (fs.files (place j.dir e)).isSome ∧ subpath e = [.normal kPackageJson]
  | .redo b e todo s m l => ∃ pre, Amid env j t b pre (e :: todo) fs ∧ e.regular = true ∧ Kept G env pre s ∧
      (fs.files (place j.dir e)).isSome ∧ subpath e = [.normal kPackageJson] ∧ (G → env.manifest e.content = some m) ∧
      FromEntries env (env.untar t).1 l
  | .redone b e todo s m k h l => ∃ pre, b = t ∧ j.Fits env b ∧ (env.untar t).1 = pre ++ e :: todo ∧ e.regular = true ∧
      Kept G env pre s ∧ subpath e = [.normal kPackageJson] ∧ (G → env.manifest e.content = some m) ∧
      FromEntries env (env.untar t).1 ((k, h) :: l) ∧ fs.files (RPath.goTo j.dir k) = none ∧
      ∀ e' ∈ pre ++ [e], e'.regular = true → (fs.files (place j.dir e')).isSome ∨ place j.dir e' = RPath.goTo j.dir k
  | .bins cache b _ s => Amid env j t b (env.untar t).1 [] fs ∧ (cache = true → Kept G env (env.untar t).1 s) ∧ (env.untar t).2 = true
  | .record cache b s => Amid env j t b (env.untar t).1 [] fs ∧ (cache = true → Kept G env (env.untar t).1 s) ∧ (env.untar t).2 = true
  | .done _ => Pres j.dir (env.untar t).1 fs

theorem pres_of {dir es} {a b : FS} (hf : ∀ e ∈ es, e.regular = true → b.files (place dir e) = a.files (place dir e))
    (h : Pres dir es a) : Pres dir es b := fun e he hr => by rw [hf e he hr]; exact h e he hr

/-- what others do does not matter -/
theorem pcinv_other {G : Prop} {env : Env} {j : Job} {t pc} {a b : FS} (hs : Sane a)
    (hf : ∀ e ∈ (env.untar t).1, e.regular = true → b.files (place j.dir e) = a.files (place j.dir e))
    (hst : ∀ h i, b.store h = some i → a.store h = some i ∨ a.next ≤ i)
    (hi : PCInv G env j t pc a) : PCInv G env j t pc b := by
  have amid : ∀ {x pre todo}, Amid env j t x pre todo a → Amid env j t x pre todo b := by
    rintro x pre todo ⟨h1, h2, h3, h4⟩
    exact ⟨h1, h2, h3, pres_of (fun e he => hf e (by rw [h3]; exact List.mem_append_left _ he)) h4⟩
  have hfrom : ∀ {l : Files}, FromEntries env (env.untar t).1 l → ∀ kh ∈ l, b.files (RPath.goTo j.dir kh.1) = a.files (RPath.goTo j.dir kh.1) := by
    intro l hl kh hkh
    obtain ⟨e, he, hr, hk, _⟩ := hl kh hkh
    rw [← hk]; exact hf e he hr
  have amidF : ∀ {l : Files}, AmidFiles env j.dir (env.untar t).1 l a → AmidFiles env j.dir (env.untar t).1 l b := by
    rintro l ⟨h1, h2, h3, h4⟩
    refine ⟨h1, h2, fun kh hkh => by rw [hfrom h1 kh hkh]; exact h3 kh hkh, fun e he hr => ?_⟩
    rw [hf e he hr]; exact h4 e he hr
  cases pc with
  | start => exact fun e he hr => (hf e he hr).trans (hi e he hr)
  | linkDir => exact amidF hi
  | link => exact amidF hi
  | evict => trivial
  | fetch => trivial
  | failed => trivial
  | folder => exact hi
  | entry => obtain ⟨pre, h1, h2⟩ := hi; exact ⟨pre, amid h1, h2⟩
  | plain => obtain ⟨pre, h1, h2⟩ := hi; exact ⟨pre, amid h1, h2⟩
  | commit => obtain ⟨pre, h1, h2⟩ := hi; exact ⟨pre, amid h1, h2⟩
  | write bb e todo s =>
    obtain ⟨pre, h1, h2, h3, h4⟩ := hi
    have he : e ∈ (env.untar t).1 := by rw [h1.2.2.1]; simp
    refine ⟨pre, amid h1, h2, h3, fun k hk hc => ?_⟩
    rw [hf e he h2] at hk
    rcases hst _ _ hc with h | h
    · exact h4 k hk h
    · have := hs.1 _ _ hk; omega
  | manifest bb e todo s =>
    obtain ⟨pre, h1, h2, h3, h4, h5⟩ := hi
    have he : e ∈ (env.untar t).1 := by rw [h1.2.2.1]; simp
    exact ⟨pre, amid h1, h2, h3, by rw [hf e he h2]; exact h4, h5⟩
  | redo bb e todo s m l =>
    obtain ⟨pre, h1, h2, h3, h4, h5⟩ := hi
    have he : e ∈ (env.untar t).1 := by rw [h1.2.2.1]; simp
    exact ⟨pre, amid h1, h2, h3, by rw [hf e he h2]; exact h4, h5⟩
  | redone bb e todo s m k h l =>
    obtain ⟨pre, h1, h2, h3, h4, h5, h6, h7, h8, h9, h10⟩ := hi
    refine ⟨pre, h1, h2, h3, h4, h5, h6, h7, h8, (hfrom h8 (k, h) (List.mem_cons_self ..)).trans h9, fun e' he' hr' => ?_⟩
    have : e' ∈ (env.untar t).1 := by
      rw [h3]; simp only [List.mem_append, List.mem_cons, List.not_mem_nil, or_false] at he' ⊢
      rcases he' with h | h
      · exact .inl h
      · exact .inr (.inl h)
    rw [hf e' this hr']; exact h10 e' he' hr'
  | bins => exact ⟨amid hi.1, hi.2⟩
  | record => exact ⟨amid hi.1, hi.2⟩
  | done => exact pres_of hf hi

theorem listing_snoc (env : Env) (pre : List Entry) (e : Entry) (m) : listing env (pre ++ [e]) m =
    if e.regular then (listing env pre m).insert (subpath e) (env.xxh e.content, e.bits) else listing env pre m := by
  simp only [listing, List.foldl_append, List.foldl_cons, List.foldl_nil]; rfl

theorem manifestOf_snoc (env : Env) (pre : List Entry) (e : Entry) (m) : manifestOf env (pre ++ [e]) m =
    if e.regular = true ∧ subpath e = [.normal kPackageJson] then env.manifest e.content else manifestOf env pre m := by
  simp only [manifestOf, List.foldl_append, List.foldl_cons, List.foldl_nil]; rfl

theorem honest_weak {G : Prop} {env fs} (h : Honest env fs) : HonestF G env fs := fun k idx hk => by
  obtain ⟨t, h1, h2, h3, h4, h5⟩ := h k idx hk
  exact ⟨t, h1, h2, h3, fun _ => ⟨h4, h5⟩⟩

theorem honest_strong {G : Prop} {env fs} (hc : G) (h : HonestF G env fs) : Honest env fs := fun k idx hk => by
  obtain ⟨t, h1, h2, h3, h4⟩ := h k idx hk
  exact ⟨t, h1, h2, h3, h4 hc⟩

theorem HonestF.of {G : Prop} {env} {a b : FS} (h : HonestF G env a) (hi : b.index = a.index) : HonestF G env b := fun k idx hk => h k idx (hi ▸ hk)

theorem kept_skip {G : Prop} {env pre s e} (h : Kept G env pre s) (hr : e.regular ≠ true) : Kept G env (pre ++ [e]) s := by
  refine ⟨by rw [listing_snoc, if_neg hr]; exact h.1, fun hc => ?_⟩
  obtain ⟨h1, h2, h3⟩ := h.2 hc
  refine ⟨h1, by rw [manifestOf_snoc, if_neg (fun h => hr h.1)]; exact h2, ?_⟩
  rintro ⟨e', he', hx⟩
  simp only [List.mem_append, List.mem_cons, List.not_mem_nil, or_false] at he'
  rcases he' with he' | rfl
  · exact h3 ⟨e', he', hx⟩
  · exact absurd hx.1 hr

theorem kept_file {G : Prop} {env pre s e} (h : Kept G env pre s) (hr : e.regular = true) (hn : subpath e ≠ [.normal kPackageJson]) :
    Kept G env (pre ++ [e]) (s.remember env e) := by
  refine ⟨by rw [listing_snoc, if_pos hr, ← h.1]; rfl, fun hc => ?_⟩
  obtain ⟨h1, h2, h3⟩ := h.2 hc
  refine ⟨h1, by rw [manifestOf_snoc, if_neg (fun h => hn h.2)]; exact h2, ?_⟩
  rintro ⟨e', he', hx⟩
  simp only [List.mem_append, List.mem_cons, List.not_mem_nil, or_false] at he'
  rcases he' with he' | rfl
  · exact h3 ⟨e', he', hx⟩
  · exact absurd hx.2.1 hn

theorem kept_manifest {G : Prop} {env : Env} {pre} {s s' : Book} {e m} (h : Kept G env pre s) (hr : e.regular = true)
    (hn : subpath e = [.normal kPackageJson])
    (hm : G → env.manifest e.content = some m) (hf : s'.idx.files = s.idx.files) (hb : s'.idx.binPaths = s.idx.binPaths)
    (hmani : s'.mani = some m) (hmono : s.idx.shouldCopy = true → s'.idx.shouldCopy = true)
    (hsc : m.scripts = true → s'.idx.shouldCopy = true) : Kept G env (pre ++ [e]) (s'.remember env e) := by
  refine ⟨by rw [listing_snoc, if_pos hr, ← h.1, ← hf]; rfl, fun hc => ?_⟩
  obtain ⟨h1, h2, h3⟩ := h.2 hc
  refine ⟨hb.trans h1, by rw [manifestOf_snoc, if_pos ⟨hr, hn⟩, hm hc]; exact hmani, ?_⟩
  rintro ⟨e', he', hx⟩
  simp only [List.mem_append, List.mem_cons, List.not_mem_nil, or_false] at he'
  rcases he' with he' | rfl
  · exact hmono (h3 ⟨e', he', hx⟩)
  · obtain ⟨_, _, m', hm', hs'⟩ := hx
    rw [hm hc] at hm'; cases hm'
    exact hsc hs'

/-! ### One step -/

/-- what is known after a step -/
def Stepped (G : Prop) (env : Env) (j : Job) (t : Bytes) (fs : FS) (r : PC × FS) : Prop :=
  Does env j.dir (env.untar t).1 fs r.2 ∧ PCInv G env j t r.1 r.2 ∧ HonestF G env r.2

theorem fits_of {env : Env} {j : Job} {evs temp} (hn : j.net = some evs)
    (h : Tarball.intoTemp env.digest env.limit (.memory []) ⟨j.expected.map fun i => (i, []), evs⟩ = .ok temp) :
    j.Fits env temp.bytes := by
  unfold Job.Fits
  cases he : j.expected with
  | some i =>
    rw [he] at h
    simp only [Option.map_some] at h
    have := intoTemp_eq env.digest env.limit ⟨some (i, []), evs⟩ (.memory [])
    have hra := readAll_checked env.digest i evs []
    cases hx : Tarball.readAll env.digest ⟨some (i, []), evs⟩ with
    | error e => rw [this.1 e hx] at h; cases h
    | ok bs =>
      obtain ⟨s', h1, h2⟩ := this.2 bs hx
      rw [h1] at h
      cases h
      simp only
      rw [h2]
      rw [hx] at hra
      split at hra
      · cases hra
      · split at hra
        · rename_i hc
          cases hra
          exact check_iff.1 hc
        · cases hra
  | none =>
    rw [he] at h
    simp only [Option.map_none] at h
    have := intoTemp_eq env.digest env.limit ⟨none, evs⟩ (.memory [])
    have hra := readAll_unchecked env.digest evs
    cases hx : Tarball.readAll env.digest ⟨none, evs⟩ with
    | error e => rw [this.1 e hx] at h; cases h
    | ok bs =>
      obtain ⟨s', h1, h2⟩ := this.2 bs hx
      rw [h1] at h
      cases h
      refine ⟨evs, hn, ?_⟩
      rw [h2]
      rw [hx] at hra
      split at hra
      · cases hra
      · rename_i hw
        cases hra
        rw [hw]; rfl

theorem fits_matches {env : Env} {j : Job} {b} (h : j.Fits env b) : Matches env.digest (j.expected.getD (env.sri b)) b := by
  unfold Job.Fits at h
  cases he : j.expected with
  | some i => rw [he] at h; exact h
  | none => exact sri_check env b

theorem step_ok {G : Prop} {env : Env} {j : Job} {t : Bytes} {pc : PC} {fs : FS} (ho : ∀ f, (env.ord f).Perm f)
    (hG : G → NoCol env) (hfit : ∀ b, j.Fits env b → b = t) (hpl : Plain (env.untar t).1) (hd : Distinct j.dir (env.untar t).1)
    (hs : Sane fs) (hr : Right env j.dir (env.untar t).1 fs) (hh : HonestF G env fs) (hi : PCInv G env j t pc fs) :
    Stepped G env j t fs (j.step env pc fs) := by
  have still : ∀ pc', PCInv G env j t pc' fs → Stepped G env j t fs (pc', fs) := fun pc' h => ⟨.refl hs hr, h, hh⟩
  have hctd := plain_contained hpl
  cases pc with
  | start =>
    simp only [Job.step]
    cases hex : j.expected with
    | none => exact still _ trivial
    | some i =>
      cases hca : j.cache with
      | false => exact still _ trivial
      | true =>
        simp only
        cases hix : fs.index i with
        | none => exact still _ trivial
        | some ce =>
          cases ce with
          | broken => exact still _ trivial
          | good idx =>
            refine still _ ?_
            obtain ⟨t', ht', _, hidx, _⟩ := hh i idx hix
            have htt : t' = t := hfit t' (by unfold Job.Fits; rw [hex]; exact ht')
            subst htt
            have hfrom : FromEntries env (env.untar t').1 idx.files := by
              rw [hidx]; exact listing_from env _ _ [] (fun _ h => h) (by intro x hx; cases hx)
            have hperm := ho idx.files
            have hfrom' := perm_from hfrom hperm
            have hwf : IMap.WF (env.ord idx.files) := by
              have : IMap.WF idx.files := by rw [hidx]; exact listing_wf env _ [] IMap.wf_nil
              exact (hperm.map Prod.fst).nodup_iff.2 this
            have hkey : ∀ kh ∈ env.ord idx.files, ∀ c ∈ kh.1, ∃ s, c = Comp.normal s := by
              intro kh hkh
              obtain ⟨e, he, hr, hk, _⟩ := hfrom' kh hkh
              rw [← hk]; exact hpl e he hr
            have hdd : (env.ord idx.files).Pairwise fun a b => RPath.goTo j.dir a.1 ≠ RPath.goTo j.dir b.1 := by
              refine (List.pairwise_map.1 hwf).imp_of_mem ?_
              intro a b ha hb hab h
              exact hab (goTo_inj (hkey a ha) (hkey b hb) h)
            refine ⟨?_, List.pairwise_map.2 hdd, ?_, fun e he hre => .inr ?_⟩
            · intro x hx; obtain ⟨kh, hkh, rfl⟩ := List.mem_map.1 hx; exact hfrom' kh hkh
            · intro x hx
              obtain ⟨kh, hkh, rfl⟩ := List.mem_map.1 hx
              obtain ⟨e, he, hre, hk, _⟩ := hfrom' kh hkh
              simp only
              rw [← hk]; exact hi e he hre
            · have hcov := listing_covers env (env.untar t').1 [] e he hre
              rw [← hidx] at hcov
              obtain ⟨kh, hkh, hke⟩ := List.mem_map.1 hcov
              exact ⟨_, List.mem_map.2 ⟨kh, hperm.mem_iff.2 hkh, rfl⟩, hke⟩
  | linkDir m todo created =>
    cases todo with
    | nil =>
      simp only [Job.step]
      cases j.expected with
      | none => exact still _ trivial
      | some i =>
        refine still _ fun e he hre => ?_
        rcases hi.2.2.2 e he hre with h | ⟨_, h, _⟩
        · exact h
        · cases h
    | cons kh r =>
      obtain ⟨k, h⟩ := kh
      simp only [Job.step]
      cases hm : mkdirp created fs (RPath.goTo j.dir k).dropLast with
      | none => exact still _ trivial
      | some cf =>
        obtain ⟨c', fs'⟩ := cf
        have hdo := does_mkdirp hs hr hm
        obtain ⟨d, rfl⟩ := mkdirp_eq hm
        exact ⟨hdo, hi, hh⟩
  | link m k h r created =>
    simp only [Job.step]
    cases hm : extractFile env m fs h (RPath.goTo j.dir k) with
    | none => exact still _ trivial
    | some fs' =>
      obtain ⟨h1, h2, h3, h4⟩ := hi
      obtain ⟨e, he, hre, hk, hhx⟩ := h1 (k, h) (List.mem_cons_self ..)
      simp only at hk hhx
      have hp : RPath.goTo j.dir k = place j.dir e := by rw [← hk]; rfl
      have hvac : fs.files (place j.dir e) = none := by rw [← hp]; exact h3 (k, h) (List.mem_cons_self ..)
      rw [hp] at hm
      obtain ⟨hdo, hpres, hmono, hoth, hix⟩ := does_extractFile hs hd hr he hre hhx (fun x hx => by rw [hvac] at hx; cases hx) hm
      rw [List.pairwise_cons] at h2
      refine ⟨hdo, ⟨fun x hx => h1 x (List.mem_cons_of_mem _ hx), h2.2, fun kh hkh => ?_, fun e' he' hre' => ?_⟩, hh.of hix⟩
      · rw [hoth _ (by rw [← hp]; exact (h2.1 kh hkh).symm)]
        exact h3 kh (List.mem_cons_of_mem _ hkh)
      · rcases h4 e' he' hre' with h | ⟨kh, hkh, hke⟩
        · exact .inl (hmono _ h)
        · rcases List.mem_cons.1 hkh with rfl | hkh
          · left
            have : place j.dir e' = place j.dir e := by
              rw [← hp]; simp only at hke; rw [hke]; rfl
            rw [this]; exact hpres
          · exact .inr ⟨kh, hkh, hke⟩
  | evict =>
    simp only [Job.step]
    cases hex : j.expected with
    | none => exact still _ trivial
    | some i =>
      simp only
      cases hm : evict i fs with
      | none => exact still _ trivial
      | some fs' =>
        refine ⟨does_evict hs hr hm, trivial, fun k idx hk => ?_⟩
        simp only at hk
        unfold evict at hm
        split at hm
        · cases hm; exact hh k idx hk
        · rename_i e _
          cases e with
          | broken => cases hm
          | good idx' =>
            simp only [clean, Option.some.injEq] at hm
            subst hm
            simp only [upd] at hk
            split at hk
            · cases hk
            · exact hh k idx hk
  | fetch cache =>
    simp only [Job.step]
    cases hn : j.net with
    | none => exact still _ trivial
    | some evs =>
      simp only
      cases hm : Tarball.intoTemp env.digest env.limit (.memory []) ⟨j.expected.map fun i => (i, []), evs⟩ with
      | error e => exact still _ trivial
      | ok temp => exact still _ ⟨hfit _ (fits_of hn hm), fits_of hn hm⟩
  | folder cache b =>
    simp only [Job.step]
    cases hm : mkdirp [] fs j.dir with
    | none => exact still _ trivial
    | some cf =>
      obtain ⟨c', fs'⟩ := cf
      have hdo := does_mkdirp hs hr hm
      obtain ⟨d, rfl⟩ := mkdirp_eq hm
      refine ⟨hdo, ⟨[], ⟨hi.1, hi.2, by rw [hi.1]; rfl, fun e he => by cases he⟩, fun _ => ⟨rfl, fun _ => ⟨rfl, rfl, ?_⟩⟩⟩, hh⟩
      rintro ⟨_, h, _⟩; cases h
  | entry cache b todo s =>
    obtain ⟨pre, hA, hK⟩ := hi
    cases todo with
    | nil =>
      simp only [Job.step]
      have hpre : (env.untar t).1 = pre := by rw [hA.2.2.1, List.append_nil]
      split
      · rename_i hu
        refine still _ ⟨⟨hA.1, hA.2.1, by simp, by rw [hpre]; exact hA.2.2.2⟩, by rw [hpre]; exact hK, by rw [← hA.1]; exact hu⟩
      · exact still _ trivial
    | cons e r =>
      simp only [Job.step]
      split
      · rename_i hre
        cases hm : mkdirp s.created fs (RPath.goTo j.dir (subpath e)).dropLast with
        | none => exact still _ trivial
        | some cf =>
          obtain ⟨c', fs'⟩ := cf
          have hdo := does_mkdirp hs hr hm
          obtain ⟨d, rfl⟩ := mkdirp_eq hm
          refine ⟨hdo, ?_, hh⟩
          cases cache with
          | true => exact ⟨pre, hA, hre, hK rfl⟩
          | false => exact ⟨pre, hA, hre⟩
      · rename_i hre
        refine still _ ⟨pre ++ [e], ⟨hA.1, hA.2.1, by rw [hA.2.2.1]; simp, fun e' he' hre' => ?_⟩, fun hc => kept_skip (hK hc) hre⟩
        simp only [List.mem_append, List.mem_cons, List.not_mem_nil, or_false] at he'
        rcases he' with he' | rfl
        · exact hA.2.2.2 e' he' hre'
        · exact absurd hre' hre
  | plain b e r s =>
    obtain ⟨pre, hA, hre⟩ := hi
    have he : e ∈ (env.untar t).1 := by rw [hA.2.2.1]; simp
    simp only [Job.step]
    split
    · exact still _ trivial
    · refine ⟨does_create (c := e.content) hs hd hr he hre rfl, ⟨pre ++ [e], ⟨hA.1, hA.2.1, by rw [hA.2.2.1]; simp, ?_⟩,
        fun h => by cases h⟩, hh.of rfl⟩
      intro e' he' hre'
      simp only [FS.setMode, FS.create, upd]
      split
      · rfl
      · rename_i hne
        simp only [List.mem_append, List.mem_cons, List.not_mem_nil, or_false] at he'
        rcases he' with he' | rfl
        · exact hA.2.2.2 e' he' hre'
        · exact absurd rfl hne
  | commit b e r s =>
    obtain ⟨pre, hA, hre, hK⟩ := hi
    refine ⟨does_commit hs hr, ⟨pre, hA, hre, hK, fun k hk hc => ?_⟩, hh.of rfl⟩
    simp only [Job.step] at hk hc
    rw [commit_store] at hc
    cases hc
    have := hs.1 _ _ hk
    omega
  | write b e r s =>
    obtain ⟨pre, hA, hre, hK, hne⟩ := hi
    have he : e ∈ (env.untar t).1 := by rw [hA.2.2.1]; simp
    simp only [Job.step]
    cases hm : extractFile env s.mode fs (env.xxh e.content, e.bits) (RPath.goTo j.dir (subpath e)) with
    | none => exact still _ trivial
    | some fs' =>
      obtain ⟨hdo, hpres, hmono, hoth, hix⟩ := does_extractFile hs hd hr he hre rfl hne hm
      refine ⟨hdo, ?_, hh.of hix⟩
      have hP : Pres j.dir pre fs' := fun e' he' hre' => hmono _ (hA.2.2.2 e' he' hre')
      show PCInv G env j t (if subpath e = [Comp.normal kPackageJson] then .manifest b e r s else .entry true b r (s.remember env e)) fs'
      by_cases hpj : subpath e = [Comp.normal kPackageJson]
      · rw [if_pos hpj]
        exact ⟨pre, ⟨hA.1, hA.2.1, hA.2.2.1, hP⟩, hre, hK, hpres, hpj⟩
      · rw [if_neg hpj]
        refine ⟨pre ++ [e], ⟨hA.1, hA.2.1, by rw [hA.2.2.1]; simp, fun e' he' hre' => ?_⟩, fun _ => kept_file hK hre hpj⟩
        simp only [List.mem_append, List.mem_cons, List.not_mem_nil, or_false] at he'
        rcases he' with he' | rfl
        · exact hP e' he' hre'
        · exact hpres
  | manifest b e r s =>
    obtain ⟨pre, hA, hre, hK, hpres, hpj⟩ := hi
    have he : e ∈ (env.untar t).1 := by rw [hA.2.2.1]; simp
    have hA' : Amid env j t b (pre ++ [e]) r fs := by
      refine ⟨hA.1, hA.2.1, by rw [hA.2.2.1]; simp, fun e' he' hre' => ?_⟩
      simp only [List.mem_append, List.mem_cons, List.not_mem_nil, or_false] at he'
      rcases he' with he' | rfl
      · exact hA.2.2.2 e' he' hre'
      · exact hpres
    simp only [Job.step]
    cases hm : (fs.files (RPath.goTo j.dir (subpath e))).bind fun i => env.manifest (fs.content i) with
    | none => exact still _ trivial
    | some m =>
      have hmc : G → env.manifest e.content = some m := by
        intro hc
        obtain ⟨i, hi1, hi2⟩ := Option.bind_eq_some_iff.1 hm
        rw [← hi2]; exact (hG hc _ _ (hr e he hre i hi1)).symm
      simp only
      split
      · rename_i hsc
        split
        · exact still _ ⟨pre ++ [e], hA', fun _ => kept_manifest hK hre hpj hmc rfl rfl rfl (fun _ => rfl) (fun _ => rfl)⟩
        · refine still _ ⟨pre, hA, hre, hK, hpres, hpj, hmc, perm_from ?_ (ho _)⟩
          rw [hK.1]
          exact listing_from env _ _ [] (fun x hx => by rw [hA.2.2.1]; exact List.mem_append_left _ hx) (by intro x hx; cases hx)
      · rename_i hsc
        exact still _ ⟨pre ++ [e], hA', fun _ => kept_manifest hK hre hpj hmc rfl rfl rfl id (fun h => absurd h hsc)⟩
  | redo b e r s m l =>
    obtain ⟨pre, hA, hre, hK, hpres, hpj, hmc, hl⟩ := hi
    have hP : Pres j.dir (pre ++ [e]) fs := fun e' he' hre' => by
      simp only [List.mem_append, List.mem_cons, List.not_mem_nil, or_false] at he'
      rcases he' with he' | rfl
      · exact hA.2.2.2 e' he' hre'
      · exact hpres
    cases l with
    | nil =>
      exact still _ ⟨pre ++ [e], ⟨hA.1, hA.2.1, by rw [hA.2.2.1]; simp, hP⟩,
        fun _ => kept_manifest hK hre hpj hmc rfl rfl rfl (fun _ => rfl) (fun _ => rfl)⟩
    | cons kh l =>
      obtain ⟨k, h⟩ := kh
      simp only [Job.step]
      cases hm : fs.remove (RPath.goTo j.dir k) with
      | none => exact still _ trivial
      | some fs' =>
        have := remove_eq hm
        subst this
        obtain ⟨e', he', hre', hk', _⟩ := hl (k, h) (List.mem_cons_self ..)
        have hp : RPath.goTo j.dir k = place j.dir e' := by simp only at hk'; rw [← hk']; rfl
        refine ⟨by rw [hp]; exact does_remove hs hr he' hre', ⟨pre, hA.1, hA.2.1, hA.2.2.1, hre, hK, hpj, hmc, hl, by simp [upd], ?_⟩,
          hh.of rfl⟩
        intro e2 he2 hre2
        by_cases heq : place j.dir e2 = RPath.goTo j.dir k
        · exact .inr heq
        · left
          simp only [upd_ne _ _ heq]
          exact hP e2 he2 hre2
  | redone b e r s m k h l =>
    obtain ⟨pre, h1, h2, h3, hre, hK, hpj, hmc, hl, hvac, hP⟩ := hi
    simp only [Job.step]
    cases hm : extractFile env .auto fs h (RPath.goTo j.dir k) with
    | none => exact still _ trivial
    | some fs' =>
      obtain ⟨e', he', hre', hk', hhx⟩ := hl (k, h) (List.mem_cons_self ..)
      simp only at hk' hhx
      have hp : RPath.goTo j.dir k = place j.dir e' := by rw [← hk']; rfl
      rw [hp] at hm hvac
      obtain ⟨hdo, hpres, hmono, hoth, hix⟩ := does_extractFile hs hd hr he' hre' hhx (fun x hx => by rw [hvac] at hx; cases hx) hm
      have hP' : ∀ e2 ∈ pre ++ [e], e2.regular = true → (fs'.files (place j.dir e2)).isSome := by
        intro e2 he2 hre2
        rcases hP e2 he2 hre2 with h | h
        · exact hmono _ h
        · rw [h, hp]; exact hpres
      exact ⟨hdo, ⟨pre, ⟨h1, h2, h3, fun e2 he2 => hP' e2 (List.mem_append_left _ he2)⟩, hre, hK, hP' e (by simp) hre, hpj, hmc,
        fun x hx => hl x (List.mem_cons_of_mem _ hx)⟩, hh.of hix⟩
  | bins cache b l s =>
    cases l with
    | nil => exact still _ hi
    | cons x l =>
      simp only [Job.step]
      cases hm : setBinMode fs (RPath.goTo j.dir (RPath.components x)) with
      | none => exact still _ trivial
      | some fs' =>
        obtain ⟨mo, rfl⟩ := setBinMode_eq hm
        exact ⟨does_mode hs hr, hi, hh⟩
  | record cache b s =>
    obtain ⟨hA, hK, hu⟩ := hi
    cases cache with
    | false => exact still _ hA.2.2.2
    | true =>
      refine ⟨does_index hs hr, hA.2.2.2, fun k idx hk => ?_⟩
      simp only [Job.step, recordIndex, ↓reduceIte, upd] at hk
      split at hk
      · rename_i hkk
        cases hk
        obtain ⟨k1, k2⟩ := hK rfl
        have hb := hA.1
        refine ⟨t, by rw [hkk, ← hb]; exact fits_matches hA.2.1, hu, k1, fun hc => ?_⟩
        obtain ⟨k3, k4, k5⟩ := k2 hc
        refine ⟨by simp only [k3, k4, List.nil_append, binsOf_commands], ?_⟩
        rintro ⟨e, he, hr', hsp, hm⟩
        exact k5 ⟨e, he, hr', hsp, hm⟩
      · exact hh k idx hk
  | done i => exact still _ hi
  | failed => exact still _ trivial

/-! ### Extractions that have nothing to do with each other -/

/-- the invariant of extractions at the same time that began at `o` -/
structure Inv (G : Prop) (env : Env) (jobs : Nat → Option Job) (tar : Nat → Bytes) (o : FS) (w : Runs) : Prop where
  sane : Sane w.fs
  honest : HonestF G env w.fs
  right : ∀ n j, jobs n = some j → Right env j.dir (env.untar (tar n)).1 w.fs
  files : ∀ p, (∀ n j, jobs n = some j → ∀ e ∈ (env.untar (tar n)).1, e.regular = true → place j.dir e ≠ p) → w.fs.files p = o.files p
  next : o.next ≤ w.fs.next
  content : ∀ k, k < o.next → env.xxh (w.fs.content k) = env.xxh (o.content k)
  pc : ∀ n j, jobs n = some j → PCInv G env j (tar n) (w.pcs n) w.fs

theorem inv_init {G : Prop} {env : Env} {jobs tar o} (hs : Sane o) (hh : HonestF G env o) (ha : Separate env jobs tar)
    (hv : AllVacant jobs o) : Inv G env jobs tar o (Runs.init o) where
  sane := hs
  honest := hh
  right n j hj e he hr k hk := by
    rw [show (Runs.init o).fs.files = o.files from rfl,
      hv n j hj _ (place_inside (plain_contained (ha.plain n j hj)) he hr)] at hk
    cases hk
  files _ _ := rfl
  next := Nat.le_refl _
  content _ _ := rfl
  pc n j hj e he hr := hv n j hj _ (place_inside (plain_contained (ha.plain n j hj)) he hr)

theorem inv_step {G : Prop} {env : Env} {jobs tar o w n} (ho : ∀ f, (env.ord f).Perm f) (hG : G → NoCol env)
    (ha : Separate env jobs tar) (h : Inv G env jobs tar o w) : Inv G env jobs tar o (w.step env jobs n) := by
  unfold Runs.step
  cases hj : jobs n with
  | none => exact h
  | some j =>
    obtain ⟨hdo, hpc, hh⟩ := step_ok ho hG (ha.fits n j hj) (ha.plain n j hj) (ha.distinct n j hj) h.sane (h.right n j hj) h.honest
      (h.pc n j hj)
    have hother : ∀ n' j', jobs n' = some j' → n' ≠ n → ∀ e ∈ (env.untar (tar n')).1, e.regular = true →
        (j.step env (w.pcs n) w.fs).2.files (place j'.dir e) = w.fs.files (place j'.dir e) := by
      intro n' j' hj' hne e he hr
      exact hdo.files _ (fun e2 he2 hr2 hx => ha.apart n j hj n' j' hj' (Ne.symm hne) e2 he2 hr2 e he hr hx)
    exact {
      sane := hdo.sane
      honest := hh
      right := fun n' j' hj' => by
        by_cases hne : n' = n
        · subst hne
          rw [hj] at hj'; cases hj'
          exact hdo.right
        · intro e he hr k hk
          simp only at hk
          rw [hother n' j' hj' hne e he hr] at hk
          rw [hdo.content k (h.sane.1 _ _ hk)]
          exact h.right n' j' hj' e he hr k hk
      files := fun p hp => (hdo.files p (fun e he hr => hp n j hj e he hr)).trans (h.files p hp)
      next := Nat.le_trans h.next hdo.next
      content := fun k hk => (hdo.content k (Nat.lt_of_lt_of_le hk h.next)).trans (h.content k hk)
      pc := fun n' j' hj' => by
        by_cases hne : n' = n
        · subst hne
          rw [hj] at hj'; cases hj'
          simp only [upd_self]
          exact hpc
        · simp only [upd_ne _ _ hne]
          exact pcinv_other h.sane (hother n' j' hj' hne) hdo.store (h.pc n' j' hj') }

theorem inv_run {G : Prop} {env : Env} {jobs tar o} (ho : ∀ f, (env.ord f).Perm f) (hG : G → NoCol env)
    (ha : Separate env jobs tar) (sched : List Nat) (w : Runs) (h : Inv G env jobs tar o w) :
    Inv G env jobs tar o (w.run env jobs sched) := by
  induction sched generalizing w with
  | nil => exact h
  | cons n r ih => exact ih _ (inv_step ho hG ha h)

/-! ### Any extractions whatsoever -/

/-- what is known of an extraction's own bookkeeping -/
def Local (env : Env) (j : Job) (pc : PC) : Prop :=
  match pc with
  | .folder _ b => j.Fits env b
  | .entry cache b todo s => j.Fits env b ∧ ∃ pre, (env.untar b).1 = pre ++ todo ∧ (cache = true → s.idx.files = listing env pre [])
  | .plain b e todo _ => j.Fits env b ∧ ∃ pre, (env.untar b).1 = pre ++ e :: todo
  | .commit b e todo s | .write b e todo s | .manifest b e todo s | .redo b e todo s _ _ | .redone b e todo s _ _ _ _ =>
    j.Fits env b ∧ e.regular = true ∧ ∃ pre, (env.untar b).1 = pre ++ e :: todo ∧ s.idx.files = listing env pre []
  | .bins cache b _ s | .record cache b s =>
    j.Fits env b ∧ (env.untar b).2 = true ∧ (cache = true → s.idx.files = listing env (env.untar b).1 [])
  | _ => True

theorem sane_extractFile {env m} {a b : FS} {h p} (hs : Sane a) (hx : extractFile env m a h p = some b) :
    Sane b ∧ b.index = a.index := by
  obtain ⟨i, hst, _, hp⟩ := extractFile_put hx
  exact ⟨sane_put hs (hs.2 _ _ hst) hp, put_index hp⟩

theorem local_step {env : Env} {j : Job} {pc : PC} {fs : FS} (hs : Sane fs) (hh : HonestF False env fs) (hi : Local env j pc) :
    Sane (j.step env pc fs).2 ∧ HonestF False env (j.step env pc fs).2 ∧ Local env j (j.step env pc fs).1 := by
  have still : ∀ pc', Local env j pc' → Sane (pc', fs).2 ∧ HonestF False env (pc', fs).2 ∧ Local env j (pc', fs).1 :=
    fun pc' h => ⟨hs, hh, h⟩
  have snoc : ∀ {b : Bytes} {pre todo e} {s : Book}, (env.untar b).1 = pre ++ e :: todo → e.regular = true →
      s.idx.files = listing env pre [] → (env.untar b).1 = (pre ++ [e]) ++ todo ∧
        (s.remember env e).idx.files = listing env (pre ++ [e]) [] := by
    intro b pre todo e s h1 h2 h3
    exact ⟨by rw [h1]; simp, by rw [listing_snoc, if_pos h2, ← h3]; rfl⟩
  cases pc with
  | start =>
    simp only [Job.step]
    split
    · split <;> exact still _ trivial
    · exact still _ trivial
  | linkDir m todo created =>
    simp only [Job.step]
    split
    · split <;> exact still _ trivial
    · split
      · exact still _ trivial
      · rename_i hm
        obtain ⟨d, rfl⟩ := mkdirp_eq hm
        exact ⟨hs, hh, trivial⟩
  | link m k h r created =>
    simp only [Job.step]
    split
    · exact still _ trivial
    · rename_i hm
      obtain ⟨h1, h2⟩ := sane_extractFile hs hm
      exact ⟨h1, hh.of h2, trivial⟩
  | evict =>
    simp only [Job.step]
    split
    · exact still _ trivial
    · split
      · exact still _ trivial
      · rename_i hm
        refine ⟨evict_sane hs hm, fun k idx hk => ?_, trivial⟩
        simp only at hk
        unfold evict at hm
        split at hm
        · cases hm; exact hh k idx hk
        · rename_i e _
          cases e with
          | broken => cases hm
          | good idx' =>
            simp only [clean, Option.some.injEq] at hm
            subst hm
            simp only [upd] at hk
            split at hk
            · cases hk
            · exact hh k idx hk
  | fetch cache =>
    simp only [Job.step]
    split
    · exact still _ trivial
    · rename_i evs hn
      split
      · exact still _ trivial
      · rename_i temp hm
        exact still _ (fits_of hn hm)
  | folder cache b =>
    simp only [Job.step]
    split
    · exact still _ trivial
    · rename_i hm
      obtain ⟨d, rfl⟩ := mkdirp_eq hm
      exact ⟨hs, hh, hi, [], rfl, fun _ => rfl⟩
  | entry cache b todo s =>
    obtain ⟨hF, pre, hp, hK⟩ := hi
    cases todo with
    | nil =>
      rw [List.append_nil] at hp
      simp only [Job.step]
      split
      · rename_i hu
        exact still _ ⟨hF, hu, by rw [hp]; exact hK⟩
      · exact still _ trivial
    | cons e r =>
      simp only [Job.step]
      split
      · rename_i hre
        split
        · exact still _ trivial
        · rename_i hm
          obtain ⟨d, rfl⟩ := mkdirp_eq hm
          refine ⟨hs, hh, ?_⟩
          cases cache with
          | true => exact ⟨hF, hre, pre, hp, hK rfl⟩
          | false => exact ⟨hF, pre, hp⟩
      · rename_i hre
        exact still _ ⟨hF, pre ++ [e], by rw [hp]; simp, fun hc => by rw [listing_snoc, if_neg hre]; exact hK hc⟩
  | plain b e r s =>
    simp only [Job.step]
    split
    · exact still _ trivial
    · obtain ⟨hF, pre, hp⟩ := hi
      exact ⟨sane_create (c := []) hs, hh.of rfl, hF, pre ++ [e], by rw [hp]; simp, fun h => by cases h⟩
  | commit b e r s => exact ⟨sane_commit hs, hh.of rfl, hi⟩
  | write b e r s =>
    obtain ⟨hF, hre, pre, hp, hK⟩ := hi
    simp only [Job.step]
    split
    · exact still _ trivial
    · rename_i hm
      obtain ⟨h1, h2⟩ := sane_extractFile hs hm
      refine ⟨h1, hh.of h2, ?_⟩
      show Local env j (if subpath e = [Comp.normal kPackageJson] then .manifest b e r s else .entry true b r (s.remember env e))
      by_cases hpj : subpath e = [Comp.normal kPackageJson]
      · rw [if_pos hpj]; exact ⟨hF, hre, pre, hp, hK⟩
      · rw [if_neg hpj]; exact ⟨hF, pre ++ [e], (snoc hp hre hK).1, fun _ => (snoc hp hre hK).2⟩
  | manifest b e r s =>
    obtain ⟨hF, hre, pre, hp, hK⟩ := hi
    simp only [Job.step]
    split
    · exact still _ trivial
    · split
      · split
        · exact still _ ⟨hF, pre ++ [e], (snoc hp hre hK).1,
            fun _ => (snoc (s := { s with idx := { s.idx with shouldCopy := true }, mani := some _ }) hp hre hK).2⟩
        · exact still _ ⟨hF, hre, pre, hp, hK⟩
      · exact still _ ⟨hF, pre ++ [e], (snoc hp hre hK).1, fun _ => (snoc (s := { s with mani := some _ }) hp hre hK).2⟩
  | redo b e r s m l =>
    obtain ⟨hF, hre, pre, hp, hK⟩ := hi
    simp only [Job.step]
    split
    · exact still _ ⟨hF, pre ++ [e], (snoc hp hre hK).1,
        fun _ => (snoc (s := { s with mode := .auto, idx := { s.idx with shouldCopy := true }, mani := some _ }) hp hre hK).2⟩
    · split
      · exact still _ trivial
      · rename_i hm
        have := remove_eq hm
        subst this
        refine ⟨⟨fun q k hq => ?_, hs.2⟩, hh.of rfl, hF, hre, pre, hp, hK⟩
        simp only [upd] at hq
        split at hq
        · cases hq
        · exact hs.1 q k hq
  | redone b e r s m k h l =>
    simp only [Job.step]
    split
    · exact still _ trivial
    · rename_i hm
      obtain ⟨h1, h2⟩ := sane_extractFile hs hm
      exact ⟨h1, hh.of h2, hi⟩
  | bins cache b l s =>
    simp only [Job.step]
    split
    · exact still _ hi
    · split
      · exact still _ trivial
      · rename_i hm
        obtain ⟨mo, rfl⟩ := setBinMode_eq hm
        exact ⟨hs, hh, hi⟩
  | record cache b s =>
    obtain ⟨hF, hu, hK⟩ := hi
    cases cache with
    | false => exact still _ trivial
    | true =>
      refine ⟨hs, fun k idx hk => ?_, trivial⟩
      simp only [Job.step, recordIndex, ↓reduceIte, upd] at hk
      split at hk
      · rename_i hkk
        cases hk
        exact ⟨b, by rw [hkk]; exact fits_matches hF, hu, hK rfl, fun h => h.elim⟩
      · exact hh k idx hk
  | done i => exact still _ trivial
  | failed => exact still _ trivial

theorem local_run {env : Env} {jobs} (sched : List Nat) (w : Runs) (hs : Sane w.fs) (hh : HonestF False env w.fs)
    (hl : ∀ n j, jobs n = some j → Local env j (w.pcs n)) :
    Sane (w.run env jobs sched).fs ∧ HonestF False env (w.run env jobs sched).fs := by
  induction sched generalizing w with
  | nil => exact ⟨hs, hh⟩
  | cons n r ih =>
    show Sane ((w.step env jobs n).run env jobs r).fs ∧ _
    cases hj : jobs n with
    | none =>
      have : w.step env jobs n = w := by unfold Runs.step; rw [hj]
      simp only [Runs.run, List.foldl_cons, this]
      exact ih w hs hh hl
    | some j =>
      obtain ⟨h1, h2, h3⟩ := local_step hs hh (hl n j hj)
      have hw : w.step env jobs n = ⟨(j.step env (w.pcs n) w.fs).2, upd w.pcs n (j.step env (w.pcs n) w.fs).1⟩ := by
        unfold Runs.step; rw [hj]
      refine ih _ (by rw [hw]; exact h1) (by rw [hw]; exact h2) (fun n' j' hj' => ?_)
      rw [hw]
      by_cases hne : n' = n
      · subst hne
        rw [hj] at hj'; cases hj'
        simp only [upd_self]; exact h3
      · simp only [upd_ne _ _ hne]; exact hl n' j' hj'

theorem history_honest {env : Env} {fs} (h : History env fs) : Sane fs ∧ HonestF False env fs := by
  induction h with
  | init fs hs hi => exact ⟨hs, fun k idx hk => by rw [hi k] at hk; cases hk⟩
  | batch fs jobs sched _ ih => exact local_run sched _ ih.1 ih.2 (fun _ _ _ => trivial)
  | other fs fs' _ hs hi ih => exact ⟨hs, fun k idx hk => ih.2 k idx (hi k idx hk)⟩

/-! ### One extraction by itself -/

/-- some steps of an extraction -/
inductive Goes (env : Env) (j : Job) : PC × FS → PC × FS → Prop
  | refl (x) : Goes env j x x
  | step {x y} : Goes env j (j.step env x.1 x.2) y → Goes env j x y

theorem Goes.trans {env j x y z} (h1 : Goes env j x y) (h2 : Goes env j y z) : Goes env j x z := by
  induction h1 with
  | refl => exact h2
  | step _ ih => exact .step (ih h2)

/-- one step, with its result -/
theorem Goes.one {env : Env} {j : Job} {pc fs y z} (h : j.step env pc fs = y) (h2 : Goes env j y z) : Goes env j (pc, fs) z :=
  .step (by rw [h]; exact h2)

theorem goes_redo {env : Env} {j : Job} {b e r} {s : Book} {m} (l : Files) (fs : FS) :
    Goes env j (.redo b e r s m l, fs) (match reExtract env j.dir l fs with
      | .error fs => (.failed, fs)
      | .ok fs => (.redo b e r s m [], fs)) := by
  induction l generalizing fs with
  | nil => exact .refl _
  | cons kh l ih =>
    obtain ⟨k, h⟩ := kh
    simp only [reExtract]
    cases h1 : fs.remove (RPath.goTo j.dir k) with
    | none => exact .one (by simp only [Job.step, h1] <;> rfl) (.refl _)
    | some fs1 =>
      refine .one (by simp only [Job.step, h1] <;> rfl) ?_
      simp only
      cases h2 : extractFile env .auto fs1 h (RPath.goTo j.dir k) with
      | none => exact .one (by simp only [Job.step, h2] <;> rfl) (.refl _)
      | some fs2 => exact .one (by simp only [Job.step, h2] <;> rfl) (ih fs2)

/-- where an extraction stands after some entries -/
def after (cache : Bool) (b : Bytes) (todo : List Entry) : Except FS XSt → PC × FS
  | .error fs => (.failed, fs)
  | .ok x => (.entry cache b todo x.book, x.fs)

theorem goes_entry {env : Env} {j : Job} {cache b e r} (s : Book) (fs : FS) :
    Goes env j (.entry cache b (e :: r) s, fs) (after cache b r (extractEntry env j.dir cache (s.on fs) e)) := by
  by_cases hr : e.regular = true
  · simp only [extractEntry, hr, ↓reduceIte, Book.on]
    cases h1 : mkdirp s.created fs (RPath.goTo j.dir (subpath e)).dropLast with
    | none => exact .one (by simp only [Job.step, hr, ↓reduceIte, h1] <;> rfl) (.refl _)
    | some cf =>
      obtain ⟨created, fs1⟩ := cf
      simp only
      refine .one (by simp only [Job.step, hr, ↓reduceIte, h1] <;> rfl) ?_
      cases cache with
      | false =>
        simp only [Bool.false_eq_true, ↓reduceIte, putPlain]
        split
        · rename_i ht
          exact .one (by simp only [Job.step, ht, ↓reduceIte] <;> rfl) (.refl _)
        · rename_i ht
          exact .one (by simp only [Job.step, ht] <;> rfl) (.refl _)
      | true =>
        simp only [↓reduceIte, putCached]
        refine .one rfl ?_
        cases h2 : extractFile env s.mode (commit env fs1 e.content) (env.xxh e.content, e.bits)
            (RPath.goTo j.dir (subpath e)) with
        | none => exact .one (by simp only [Job.step, h2] <;> rfl) (.refl _)
        | some fs2 =>
          simp only
          by_cases hpj : subpath e = [Comp.normal kPackageJson]
          · rw [if_pos hpj]
            refine .one (by simp only [Job.step, h2]; rw [if_pos hpj]) ?_
            simp only [onManifest]
            cases h3 : (fs2.files (RPath.goTo j.dir (subpath e))).bind fun i => env.manifest (fs2.content i) with
            | none => exact .one (by simp only [Job.step, h3] <;> rfl) (.refl _)
            | some m =>
              simp only [onScripts]
              by_cases hm : m.scripts = true
              · simp only [hm, ↓reduceIte]
                by_cases hc : s.mode.isCopy = true
                · simp only [hc, ↓reduceIte]
                  exact .one (by simp only [Job.step, h3, hm, hc, ↓reduceIte] <;> rfl) (.refl _)
                · simp only [hc]
                  refine .one (by simp only [Job.step, h3, hm, hc, ↓reduceIte] <;> rfl) ?_
                  refine (goes_redo _ _).trans ?_
                  cases h4 : reExtract env j.dir (env.ord s.idx.files) fs2 with
                  | error fs3 => exact .refl _
                  | ok fs3 => exact .one rfl (.refl _)
              · simp only [hm]
                exact .one (by simp only [Job.step, h3, hm] <;> rfl) (.refl _)
          · rw [if_neg hpj]
            exact .one (by simp only [Job.step, h2]; rw [if_neg hpj]; rfl) (.refl _)
  · simp only [extractEntry, hr]
    exact .one (by simp only [Job.step, hr] <;> rfl) (.refl _)

theorem goes_entries {env : Env} {j : Job} {cache b} (l : List Entry) (s : Book) (fs : FS) :
    Goes env j (.entry cache b l s, fs) (after cache b [] (extractEntries env j.dir cache l (s.on fs))) := by
  induction l generalizing s fs with
  | nil => exact .refl _
  | cons e r ih =>
    refine (goes_entry s fs).trans ?_
    simp only [extractEntries]
    cases h : extractEntry env j.dir cache (s.on fs) e with
    | error fs1 => exact .refl _
    | ok x => exact ih x.book x.fs

theorem goes_bins {env : Env} {j : Job} {cache b} {s : Book} (l : List Str) (fs : FS) :
    Goes env j (.bins cache b l s, fs) (match setBinModes j.dir l fs with
      | .error fs => (.failed, fs)
      | .ok fs => (.record cache b s, fs)) := by
  induction l generalizing fs with
  | nil => exact .one rfl (.refl _)
  | cons x l ih =>
    simp only [setBinModes]
    cases h : setBinMode fs (RPath.goTo j.dir (RPath.components x)) with
    | none => exact .one (by simp only [Job.step, h] <;> rfl) (.refl _)
    | some fs1 => exact .one (by simp only [Job.step, h] <;> rfl) (ih fs1)

/-- where an extraction with a given result stands -/
def PC.result : Option Integrity × FS → PC × FS
  | (some i, fs) => (.done i, fs)
  | (none, fs) => (.failed, fs)

theorem goes_fetch {env : Env} {j : Job} {cache} (fs : FS) :
    Goes env j (.fetch cache, fs) (PC.result (viaNet env j.dir cache j.mode j.expected j.net fs)) := by
  unfold viaNet
  cases h1 : j.net with
  | none => exact .one (by simp only [Job.step, h1] <;> rfl) (.refl _)
  | some evs =>
    simp only [extractData]
    cases h2 : Tarball.intoTemp env.digest env.limit (.memory []) ⟨j.expected.map fun i => (i, []), evs⟩ with
    | error e => exact .one (by simp only [Job.step, h1, h2] <;> rfl) (.refl _)
    | ok temp =>
      refine .one (by simp only [Job.step, h1, h2] <;> rfl) ?_
      simp only [extractTemp]
      cases h3 : mkdirp [] fs j.dir with
      | none => exact .one (by simp only [Job.step, h3] <;> rfl) (.refl _)
      | some cf =>
        obtain ⟨created, fs1⟩ := cf
        refine .one (by simp only [Job.step, h3] <;> rfl) ?_
        refine (goes_entries _ _ _).trans ?_
        simp only [PC.first, Book.on]
        cases h4 : extractEntries env j.dir cache (env.untar temp.bytes).1 ⟨fs1, created, j.mode, ⟨false, [], []⟩, none⟩ with
        | error fs2 => exact .refl _
        | ok x =>
          simp only [after]
          split
          · rename_i hu
            refine .one (by simp only [Job.step, hu, ↓reduceIte] <;> rfl) ?_
            refine (goes_bins _ _).trans ?_
            simp only [finish, XSt.book]
            cases h5 : setBinModes j.dir (Mani.binsOf x.mani) x.fs with
            | error fs3 => exact .refl _
            | ok fs3 => exact .one rfl (.refl _)
          · rename_i hu
            exact .one (by simp only [Job.step, hu] <;> rfl) (.refl _)

theorem goes_link {env : Env} {j : Job} {m i} (hi : j.expected = some i) (l : Files) (created : List Loc) (fs : FS) :
    Goes env j (.linkDir m l created, fs) (match linkAll env j.dir m l created fs with
      | .error fs => (.evict, fs)
      | .ok fs => (.done i, fs)) := by
  induction l generalizing created fs with
  | nil => exact .one (by simp only [Job.step, hi] <;> rfl) (.refl _)
  | cons kh l ih =>
    obtain ⟨k, h⟩ := kh
    simp only [linkAll]
    cases h1 : mkdirp created fs (RPath.goTo j.dir k).dropLast with
    | none => exact .one (by simp only [Job.step, h1] <;> rfl) (.refl _)
    | some cf =>
      obtain ⟨created, fs1⟩ := cf
      refine .one (by simp only [Job.step, h1] <;> rfl) ?_
      simp only
      cases h2 : extractFile env m fs1 h (RPath.goTo j.dir k) with
      | none => exact .one (by simp only [Job.step, h2] <;> rfl) (.refl _)
      | some fs2 => exact .one (by simp only [Job.step, h2] <;> rfl) (ih _ fs2)

theorem goes_evict {env : Env} {j : Job} {i} (hi : j.expected = some i) (fs : FS) :
    Goes env j (.evict, fs) (PC.result (fallback env j.dir j.mode i j.net fs)) := by
  unfold fallback
  cases h1 : evict i fs with
  | none => exact .one (by simp only [Job.step, hi, h1] <;> rfl) (.refl _)
  | some fs1 =>
    refine .one (by simp only [Job.step, hi, h1] <;> rfl) ?_
    have := goes_fetch (env := env) (j := j) (cache := true) fs1
    rw [hi] at this
    exact this

theorem goes_all {env : Env} {j : Job} (fs : FS) :
    Goes env j (.start, fs) (PC.result (extractToDir env j.dir j.cache j.mode j.expected j.net fs)) := by
  unfold extractToDir
  cases hi : j.expected with
  | none =>
    refine .one (by simp only [Job.step, hi] <;> rfl) ?_
    have := goes_fetch (env := env) (j := j) (cache := j.cache) fs
    rw [hi] at this
    exact this
  | some i =>
    have net : ∀ c, Goes env j (.fetch c, fs) (PC.result (viaNet env j.dir c j.mode (some i) j.net fs)) := by
      intro c
      have := goes_fetch (env := env) (j := j) (cache := c) fs
      rw [hi] at this
      exact this
    cases hc : j.cache with
    | false => exact .one (by simp only [Job.step, hi, hc] <;> rfl) (net false)
    | true =>
      simp only [↓reduceIte]
      cases hx : fs.index i with
      | none => exact .one (by simp only [Job.step, hi, hc, hx] <;> rfl) (net true)
      | some ce =>
        cases ce with
        | broken => exact .one (by simp only [Job.step, hi, hc, hx] <;> rfl) (goes_evict hi fs)
        | good idx =>
          refine .one (by simp only [Job.step, hi, hc, hx] <;> rfl) ?_
          refine (goes_link hi _ _ _).trans ?_
          simp only [extractCached]
          cases hl : linkAll env j.dir (cacheMode idx j.mode) ((env.ord idx.files).map fun kh => (kh.1, cachedBits idx.binPaths kh)) [] fs with
          | error fs1 => exact goes_evict hi fs1
          | ok fs1 => exact .refl _

end Tar
end Oro
