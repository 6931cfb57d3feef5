import Verif.Proofs.TarRun
import Mathlib.Data.List.Infix
/-
Extractions at the same time that have what they need do not fail.
-/

set_option linter.unusedSectionVars false
set_option linter.unusedTactic false

namespace Oro
namespace Tar

/-! ### Folders -/

/-- in a package's folder and not in its `node_modules` -/
def Own (j : Job) (d : Loc) : Prop := Inside j.dir d ∧ ¬ Inside (j.dir ++ [kNodeModules]) d

theorem own_self (j : Job) : Own j j.dir := by
  refine ⟨List.prefix_refl _, fun h => ?_⟩
  have := List.IsPrefix.length_le h
  simp only [List.length_append, List.length_cons, List.length_nil] at this
  omega

theorem own_disjoint {jobs : Nat → Option Job} (hl : Laid jobs) {n n' j j' d} (hj : jobs n = some j) (hj' : jobs n' = some j')
    (hne : n ≠ n') (h : Own j d) (h' : Own j' d) : False := by
  rcases Nat.le_total j.dir.length j'.dir.length with hx | hx
  · exact h.2 (((hl n j hj n' j' hj' hne).2 (List.prefix_of_prefix_length_le h.1 h'.1 hx)).trans h'.1)
  · exact h'.2 (((hl n' j' hj' n j hj (Ne.symm hne)).2 (List.prefix_of_prefix_length_le h'.1 h.1 hx)).trans h.1)

theorem own_above {jobs : Nat → Option Job} (hl : Laid jobs) {n n' j j' d} (hj : jobs n = some j) (hj' : jobs n' = some j')
    (hne : n ≠ n') (h : Own j d) (h' : d <+: j'.dir) : d = j.dir := by
  by_contra hd
  have hin : Inside j.dir j'.dir := h.1.trans h'
  have h2 := (hl n j hj n' j' hj' hne).2 hin
  refine h.2 (List.prefix_of_prefix_length_le h2 h' ?_)
  have := List.IsPrefix.length_le h.1
  have : j.dir.length ≠ d.length := fun he => hd (List.IsPrefix.eq_of_length h.1 he).symm
  simp only [List.length_append, List.length_cons, List.length_nil]
  omega

theorem own_between {j : Job} {d p : Loc} (hp : Own j p) (hd : d <+: p) (hin : Inside j.dir d) : Own j d :=
  ⟨hin, fun h => hp.2 (h.trans hd)⟩

theorem sound_eq {env : Env} {es : List Entry} (hs : Sound env es) {a b : Entry} (ha : a ∈ es) (hb : b ∈ es)
    (ra : a.regular = true) (rb : b.regular = true) (h : (RPath.components a.header).tail <+: (RPath.components b.header).tail) : a = b := by
  have gen : ∀ l : List Entry, (l.Pairwise fun a b =>
      ¬ (RPath.components a.header).tail <+: (RPath.components b.header).tail ∧
      ¬ (RPath.components b.header).tail <+: (RPath.components a.header).tail) → a ∈ l → b ∈ l → a = b := by
    intro l
    induction l with
    | nil => intro _ h; cases h
    | cons x l ih =>
      intro hp h1 h2
      rw [List.pairwise_cons] at hp
      rcases List.mem_cons.1 h1 with ha | ha <;> rcases List.mem_cons.1 h2 with hb | hb
      · rw [ha, hb]
      · exact absurd (ha ▸ h) (hp.1 b hb).1
      · exact absurd (hb ▸ h) (hp.1 a ha).2
      · exact ih hp.2 ha hb
  exact gen _ hs.apart (List.mem_filter.2 ⟨ha, ra⟩) (List.mem_filter.2 ⟨hb, rb⟩)

theorem place_prefix {dir : Loc} {a b : Entry} (ha : ∀ c ∈ (RPath.components a.header).tail, ∃ s, c = Comp.normal s)
    (hb : ∀ c ∈ (RPath.components b.header).tail, ∃ s, c = Comp.normal s) (h : place dir a <+: place dir b) :
    (RPath.components a.header).tail <+: (RPath.components b.header).tail := by
  obtain ⟨na, h1, h2⟩ := goTo_append dir _ ha
  obtain ⟨nb, h3, h4⟩ := goTo_append dir _ hb
  unfold place at h
  rw [h2, h4, List.prefix_append_right_inj] at h
  rw [h1, h3]
  exact List.IsPrefix.map _ h

/-- the static part: an archive and its folder -/
structure Place (env : Env) (j : Job) (es : List Entry) : Prop where
  sound : Sound env es
  plain : Plain es
  unbundled : Unbundled es
  below : j.dir ≠ []

theorem Place.names {env : Env} {j es} (h : Place env j es) {e : Entry} (he : e ∈ es) (hr : e.regular = true) :
    ∃ l : Loc, place j.dir e = j.dir ++ l ∧ l ≠ [] ∧ l.head? ≠ some kNodeModules := by
  obtain ⟨names, h1, h2⟩ := goTo_append j.dir _ (h.plain e he hr)
  refine ⟨names, h2, fun hn => ?_, fun hn => h.unbundled e he hr ?_⟩
  · rw [hn] at h1; exact h.sound.named e he hr h1
  · rw [h1, List.head?_map, hn]; rfl

theorem Place.own {env : Env} {j es} (h : Place env j es) {e : Entry} (he : e ∈ es) (hr : e.regular = true) :
    Own j (place j.dir e) ∧ place j.dir e ≠ j.dir := by
  obtain ⟨l, h1, h2, h3⟩ := h.names he hr
  rw [h1]
  refine ⟨⟨List.prefix_append _ _, ?_⟩, fun hx => h2 (by simpa using hx)⟩
  rintro ⟨r, hr⟩
  simp only [List.append_assoc, List.append_cancel_left_eq] at hr
  rw [← hr] at h3
  simp at h3

theorem Place.parent {env : Env} {j es} (h : Place env j es) {e : Entry} (he : e ∈ es) (hr : e.regular = true) :
    Own j (place j.dir e).dropLast ∧ (place j.dir e).dropLast <+: place j.dir e := by
  have ho := (h.own he hr).1
  obtain ⟨l, h1, h2, _⟩ := h.names he hr
  have hp : (place j.dir e).dropLast <+: place j.dir e := List.dropLast_prefix _
  refine ⟨own_between ho hp ?_, hp⟩
  rw [h1, List.dropLast_append_of_ne_nil h2]
  exact List.prefix_append _ _

theorem Place.not_within {env : Env} {j es} (h : Place env j es) {e e' : Entry} (he : e ∈ es) (hr : e.regular = true)
    (he' : e' ∈ es) (hr' : e'.regular = true) (hx : place j.dir e <+: (place j.dir e').dropLast) : False := by
  have hp := (h.parent he' hr').2
  have := sound_eq h.sound he he' hr hr' (place_prefix (h.plain e he hr) (h.plain e' he' hr') (hx.trans hp))
  subst this
  have hl := List.IsPrefix.length_le hx
  obtain ⟨l, h1, h2, _⟩ := h.names he hr
  have : (place j.dir e).length ≠ 0 := by
    rw [h1, List.length_append]
    have : l.length ≠ 0 := fun h => h2 (List.length_eq_zero_iff.1 h)
    omega
  simp only [List.length_dropLast] at hl
  omega

/-- what `created` says -/
structure Made (j : Job) (created : List Loc) (fs : FS) : Prop where
  there : ∀ d ∈ created, fs.dirs d = true
  root : created = [] ∨ j.dir ∈ created
  all : ∀ d, Own j d → d ≠ j.dir → fs.dirs d = true → d ∈ created

theorem mkdirp_fine {j : Job} {p : Loc} {created : List Loc} {fs : FS} (hp : Own j p) (hb : j.dir ≠ [])
    (hno : ∀ q, q <+: p → fs.files q = none) (hm : Made j created fs) :
    ∃ c' fs', mkdirp created fs p = some (c', fs') ∧ Made j c' fs' ∧ p ∈ c' ∧ c' ≠ [] ∧
      (∀ d, fs.dirs d = true → fs'.dirs d = true) ∧ (∀ d, fs'.dirs d = true → fs.dirs d = true ∨ d <+: p) := by
  have hp0 : p ≠ [] := fun h => hb (by have := hp.1; rw [h] at this; exact List.prefix_nil.1 this)
  unfold mkdirp
  by_cases h1 : created.contains p = true
  · rw [if_pos h1]
    rw [List.contains_iff_mem] at h1
    exact ⟨created, fs, rfl, hm, h1, List.ne_nil_of_mem h1, fun _ h => h, fun _ h => .inl h⟩
  · rw [if_neg h1]
    have h1' : p ∉ created := fun h => h1 (List.contains_iff_mem.2 h)
    by_cases h2 : created.contains p.dropLast = true
    · rw [if_pos (by rw [h2, Bool.or_true])]
      have h2' : p.dropLast ∈ created := List.contains_iff_mem.1 h2
      have hroot : j.dir ∈ created := hm.root.resolve_left (List.ne_nil_of_mem h2')
      have hpd : p ≠ j.dir := fun h => h1' (h ▸ hroot)
      have hd : fs.dirs p = false := by
        cases hx : fs.dirs p with
        | false => rfl
        | true => exact absurd (hm.all p hp hpd hx) h1'
      have hcd : createDir fs p = some { fs with dirs := upd fs.dirs p true } := by
        unfold createDir
        rw [if_neg]
        simp [FS.taken, hno p (List.prefix_refl _), hd, hm.there _ h2']
      rw [hcd]
      refine ⟨_, _, rfl, ⟨fun d hd' => ?_, .inr (List.mem_cons_of_mem _ hroot), fun d ho hne hd' => ?_⟩, List.mem_cons_self ..,
        List.cons_ne_nil _ _, fun d hd' => ?_, fun d hd' => ?_⟩
      · simp only [upd]
        split
        · rfl
        · rename_i hx
          exact hm.there d ((List.mem_cons.1 hd').resolve_left hx)
      · simp only [upd] at hd'
        split at hd'
        · rename_i hx; rw [hx]; exact List.mem_cons_self ..
        · exact List.mem_cons_of_mem _ (hm.all d ho hne hd')
      · simp only [upd]; split
        · rfl
        · exact hd'
      · simp only [upd] at hd'
        split at hd'
        · rename_i hx; rw [hx]; exact .inr (List.prefix_refl _)
        · exact .inl hd'
    · rw [if_neg (by simpa [hp0] using h2)]
      have hcd : createDirAll fs p = some { fs with dirs := fun q => fs.dirs q || p.inits.contains q } := by
        unfold createDirAll
        rw [if_neg]
        simp only [List.any_eq_true, List.mem_inits, not_exists, not_and]
        intro q hq
        simp [hno q hq]
      rw [hcd]
      refine ⟨_, _, rfl, ⟨fun d hd' => ?_, .inr ?_, fun d ho hne hd' => ?_⟩, ?_, ?_, fun d hd' => ?_, fun d hd' => ?_⟩
      · simp only [Bool.or_eq_true, List.contains_iff_mem]
        rcases List.mem_append.1 hd' with h | h
        · exact .inr h
        · exact .inl (hm.there d h)
      · exact List.mem_append_left _ ((List.mem_inits _ _).2 hp.1)
      · simp only [Bool.or_eq_true, List.contains_iff_mem] at hd'
        rcases hd' with h | h
        · exact List.mem_append_right _ (hm.all d ho hne h)
        · exact List.mem_append_left _ h
      · exact List.mem_append_left _ ((List.mem_inits _ _).2 (List.prefix_refl _))
      · exact List.ne_nil_of_mem (List.mem_append_left _ ((List.mem_inits _ _).2 (List.prefix_refl _)))
      · simp [hd']
      · simp only [Bool.or_eq_true, List.contains_iff_mem, List.mem_inits] at hd'
        exact hd'

/-! ### Files -/

/-- the cache has undamaged contents for a hash -/
def Has (env : Env) (fs : FS) (h : Str) : Prop := ∃ i, fs.store h = some i ∧ env.xxh (fs.content i) = h

theorem has_verified {env : Env} {fs : FS} {h} (hh : Has env fs h) : ∃ i, fs.verified env h = some i := by
  obtain ⟨i, h1, h2⟩ := hh
  exact ⟨i, by simp [FS.verified, h1, h2]⟩

theorem copyTo_fine {env : Env} {fs : FS} {h p} (hh : Has env fs h) (hd : fs.dirs p = false) : (copyTo env fs h p).isSome := by
  obtain ⟨i, hi⟩ := has_verified hh
  unfold copyTo
  rw [hi]
  simp only [hd, Bool.false_eq_true, if_false]
  cases fs.files p <;> rfl

theorem or_isSome_right {α} (a b : Option α) (h : b.isSome) : (a.or b).isSome := by cases a <;> simp_all

theorem extractFile_fine {env : Env} {m : Mode} {fs : FS} {h : Str × Nat} {p} (hh : Has env fs h.1) (hd : fs.dirs p = false) :
    ∃ fs', extractFile env m fs h p = some fs' ∧ fs'.dirs = fs.dirs ∧ fs'.store = fs.store := by
  have hs : (extractFile env m fs h p).isSome := by
    unfold extractFile
    rw [Option.isSome_map]
    unfold linkFile
    have := copyTo_fine hh hd
    cases m <;> simp only <;> first | exact this | exact or_isSome_right _ _ this
  obtain ⟨fs', hfs⟩ := Option.isSome_iff_exists.1 hs
  refine ⟨fs', hfs, ?_⟩
  obtain ⟨i, _, _, hp⟩ := extractFile_put hfs
  rcases hp with ⟨_, _, mo, rfl⟩ | ⟨_, mo, rfl⟩ | ⟨j, _, mo, rfl⟩ <;> exact ⟨rfl, rfl⟩

theorem has_same {env : Env} {dir es} {a b : FS} {h} (hs : Sane a) (hd : Does env dir es a b) (hst : b.store = a.store)
    (hh : Has env a h) : Has env b h := by
  obtain ⟨i, h1, h2⟩ := hh
  exact ⟨i, by rw [hst]; exact h1, by rw [hd.content i (hs.2 _ _ h1)]; exact h2⟩

theorem has_commit {env : Env} {a : FS} {h} (c : Bytes) (hs : Sane a) (hh : Has env a h) : Has env (commit env a c) h := by
  by_cases hx : env.xxh c = h
  · subst hx
    exact ⟨a.next, commit_store .., by rw [commit_content]⟩
  · obtain ⟨i, h1, h2⟩ := hh
    have : i ≠ a.next := by have := hs.2 _ _ h1; omega
    refine ⟨i, ?_, ?_⟩
    · simp only [commit]; rw [upd_ne _ _ (fun h => hx h.symm)]; exact h1
    · simp only [commit]; rw [upd_ne _ _ this]; exact h2

theorem stocked_of {env : Env} {a b : FS} {l : Files} (h : ∀ x, Has env a x → Has env b x) (hl : Stocked env a l) : Stocked env b l :=
  fun kh hkh => h _ (hl kh hkh)

/-! ### The invariant -/

/-- there are no files at the places of some entries -/
def Empty (j : Job) (l : List Entry) (fs : FS) : Prop := ∀ e ∈ l, e.regular = true → fs.files (place j.dir e) = none

/-- what is known of an extraction that goes well -/
def FinePC (env : Env) (j : Job) (t : Bytes) (pc : PC) (fs : FS) : Prop :=
  match pc with
  | .start => Served j t fs ∧ Made j [] fs
  | .linkDir _ todo created => j.expected ≠ none ∧ Stocked env fs todo ∧ Made j created fs
  | .link _ k h todo created => j.expected ≠ none ∧ Stocked env fs ((k, h) :: todo) ∧ Made j created fs
  | .evict | .failed => False
  | .fetch _ => (∃ evs, j.net = some evs ∧ whole evs = some t) ∧ Made j [] fs ∧ Empty j (env.untar t).1 fs
  | .folder _ _ => Made j [] fs ∧ Empty j (env.untar t).1 fs
  | .entry cache _ todo s => Made j s.created fs ∧ Stocked env fs s.idx.files ∧ Empty j todo fs ∧ (cache = false → s.mani = none)
  | .plain _ e todo s => Made j s.created fs ∧ Stocked env fs s.idx.files ∧ Empty j (e :: todo) fs ∧ s.mani = none
  | .commit _ e todo s => Made j s.created fs ∧ Stocked env fs s.idx.files ∧ Empty j (e :: todo) fs
  | .write _ e todo s => Made j s.created fs ∧ Stocked env fs s.idx.files ∧ Empty j todo fs ∧ Has env fs (env.xxh e.content)
  | .manifest _ e todo s => Made j s.created fs ∧ Stocked env fs s.idx.files ∧ Empty j todo fs ∧ Has env fs (env.xxh e.content)
  | .redo _ e todo s _ l => Made j s.created fs ∧ Stocked env fs s.idx.files ∧ Empty j todo fs ∧ Has env fs (env.xxh e.content) ∧
      Stocked env fs l ∧ ∀ kh ∈ l, (fs.files (RPath.goTo j.dir kh.1)).isSome
  | .redone _ e todo s _ k h l => Made j s.created fs ∧ Stocked env fs s.idx.files ∧ Empty j todo fs ∧ Has env fs (env.xxh e.content) ∧
      Stocked env fs ((k, h) :: l) ∧
      (∀ kh ∈ l, (fs.files (RPath.goTo j.dir kh.1)).isSome ∨ RPath.goTo j.dir kh.1 = RPath.goTo j.dir k) ∧
      ∀ e' ∈ todo, e'.regular = true → place j.dir e' ≠ RPath.goTo j.dir k
  | .bins _ _ l s => Stocked env fs s.idx.files ∧ ∀ x ∈ l, ∃ e ∈ (env.untar t).1, e.regular = true ∧
      RPath.goTo j.dir (RPath.components x) = place j.dir e
  | .record _ _ s => Stocked env fs s.idx.files
  | .done i => i = j.expected.getD (env.sri t)

/-- what a step of an extraction that goes well does to the folders and the cache -/
structure Gives (env : Env) (j : Job) (es : List Entry) (a b : FS) : Prop where
  dirs : ∀ d, a.dirs d = true → b.dirs d = true
  new : ∀ d, b.dirs d = true → a.dirs d = true ∨ d <+: j.dir ∨ ∃ e ∈ es, e.regular = true ∧ d <+: (place j.dir e).dropLast
  stock : ∀ h, Has env a h → Has env b h
  index : ∀ k ce, b.index k = some ce → a.index k = some ce ∨ ∃ idx, ce = .good idx ∧ Stocked env b idx.files
  keeps : ∀ k idx, a.index k = some (.good idx) → ∃ idx', b.index k = some (.good idx')

theorem Gives.same {env : Env} {j es} {a b : FS} (hd : b.dirs = a.dirs) (hs : ∀ h, Has env a h → Has env b h) (hi : b.index = a.index) :
    Gives env j es a b :=
  ⟨fun _ h => by rw [hd]; exact h, fun _ h => .inl (by rw [← hd]; exact h), hs, fun _ _ h => .inl (by rw [← hi]; exact h),
    fun _ idx h => ⟨idx, by rw [hi]; exact h⟩⟩

theorem Gives.refl {env : Env} {j es} {a : FS} : Gives env j es a a := .same rfl (fun _ h => h) rfl

theorem later_ne {env : Env} {j : Job} {es pre todo : List Entry} {e : Entry} (hP : Place env j es) (hes : es = pre ++ e :: todo)
    (hr : e.regular = true) {e' : Entry} (he' : e' ∈ todo) (hr' : e'.regular = true) : place j.dir e' ≠ place j.dir e := by
  intro hx
  have hp := hP.sound.apart
  rw [hes, List.filter_append, List.filter_cons, if_pos (by simp [hr])] at hp
  have h2 := (List.pairwise_cons.1 (List.pairwise_append.1 hp).2.1).1 e' (List.mem_filter.2 ⟨he', by simp [hr']⟩)
  refine h2.1 ?_
  have h1 := goTo_inj (hP.plain e' (by rw [hes]; simp [he']) hr') (hP.plain e (by rw [hes]; simp) hr) hx
  rw [h1]

theorem made_of {j : Job} {c} {a b : FS} (hd : b.dirs = a.dirs) (h : Made j c a) : Made j c b :=
  ⟨fun d hx => by rw [hd]; exact h.there d hx, h.root, fun d h1 h2 h3 => h.all d h1 h2 (by rw [← hd]; exact h3)⟩

/-- One step: an extraction that goes well goes on well. -/
theorem step_fine {env : Env} {j : Job} {t : Bytes} {pc : PC} {fs : FS} (ho : ∀ f, (env.ord f).Perm f) (hcol : NoCol env)
    (hP : Place env j (env.untar t).1) (hfit : ∀ b, j.Fits env b ↔ b = t) (hcomp : (env.untar t).2 = true)
    (hs : Sane fs) (hr : Right env j.dir (env.untar t).1 fs) (hst : Stepped True env j t fs (j.step env pc fs))
    (hi : PCInv True env j t pc fs) (hF : FinePC env j t pc fs)
    (hup : ∀ q, q <+: j.dir → fs.files q = none)
    (hnf : ∀ e ∈ (env.untar t).1, e.regular = true → ∀ q, q <+: (place j.dir e).dropLast → fs.files q = none)
    (hnd : ∀ e ∈ (env.untar t).1, e.regular = true → fs.dirs (place j.dir e) = false)
    (hix : ∀ i, j.expected = some i → ∀ ce, fs.index i = some ce → ∃ idx, ce = .good idx ∧ Stocked env fs idx.files) :
    FinePC env j t (j.step env pc fs).1 (j.step env pc fs).2 ∧ Gives env j (env.untar t).1 fs (j.step env pc fs).2 := by
  have hdoes := hst.1
  have still : ∀ pc', FinePC env j t pc' fs → FinePC env j t (pc', fs).1 (pc', fs).2 ∧ Gives env j (env.untar t).1 fs (pc', fs).2 :=
    fun pc' h => ⟨h, .refl⟩
  have mk : ∀ {e : Entry} {created : List Loc}, e ∈ (env.untar t).1 → e.regular = true → Made j created fs →
      ∃ c' d, mkdirp created fs (place j.dir e).dropLast = some (c', { fs with dirs := d }) ∧ Made j c' { fs with dirs := d } ∧
        Gives env j (env.untar t).1 fs { fs with dirs := d } := by
    intro e created he hre hm
    obtain ⟨c', fs', h1, h2, _, _, h3, h4⟩ := mkdirp_fine (hP.parent he hre).1 hP.below (hnf e he hre) hm
    obtain ⟨d, rfl⟩ := mkdirp_eq h1
    refine ⟨c', d, h1, h2, h3, fun x hx => ?_, fun _ h => h, fun _ _ h => .inl h, fun _ idx h => ⟨idx, h⟩⟩
    rcases h4 x hx with h | h
    · exact .inl h
    · exact .inr (.inr ⟨e, he, hre, h⟩)
  have put : ∀ {e : Entry} {m : Mode} {h : Str × Nat}, e ∈ (env.untar t).1 → e.regular = true → Has env fs h.1 →
      ∃ fs', extractFile env m fs h (place j.dir e) = some fs' ∧ fs'.dirs = fs.dirs ∧ fs'.store = fs.store ∧ fs'.index = fs.index ∧
        (∀ q, q ≠ place j.dir e → fs'.files q = fs.files q) := by
    intro e m h he hre hh
    obtain ⟨fs', h1, h2, h3⟩ := extractFile_fine (m := m) hh (hnd e he hre)
    obtain ⟨i, _, _, hp⟩ := extractFile_put h1
    refine ⟨fs', h1, h2, h3, put_index hp, fun q hq => ?_⟩
    rcases hp with ⟨_, _, mo, rfl⟩ | ⟨_, mo, rfl⟩ | ⟨j, hj, mo, rfl⟩
    · simp only [upd_ne _ _ hq]
    · simp only [FS.create, upd_ne _ _ hq]
    · rfl
  cases pc with
  | evict => exact hF.elim
  | failed => exact hF.elim
  | start =>
    obtain ⟨hsv, hm⟩ := hF
    simp only [Job.step]
    cases hex : j.expected with
    | none =>
      refine still _ ⟨?_, hm, hi⟩
      rcases hsv with h | ⟨_, i, _, h, _⟩
      · exact h
      · rw [hex] at h; cases h
    | some i =>
      cases hca : j.cache with
      | false =>
        refine still _ ⟨?_, hm, hi⟩
        rcases hsv with h | ⟨h, _⟩
        · exact h
        · rw [hca] at h; cases h
      | true =>
        simp only
        cases hxi : fs.index i with
        | none =>
          refine still _ ⟨?_, hm, hi⟩
          rcases hsv with h | ⟨_, i', idx, h, h'⟩
          · exact h
          · rw [hex] at h; cases h; rw [hxi] at h'; cases h'
        | some ce =>
          obtain ⟨idx, rfl, hstk⟩ := hix i hex ce hxi
          refine still _ ⟨(by rw [hex]; exact fun h => (by cases h)), fun x hx => ?_, hm⟩
          obtain ⟨kh, hkh, rfl⟩ := List.mem_map.1 hx
          exact hstk kh ((ho idx.files).mem_iff.1 hkh)
  | linkDir m todo created =>
    obtain ⟨hex, hstk, hm⟩ := hF
    cases todo with
    | nil =>
      simp only [Job.step]
      cases hx : j.expected with
      | none => exact absurd hx hex
      | some i => exact still _ (by simp only [FinePC, hx, Option.getD_some])
    | cons kh r =>
      obtain ⟨k, h⟩ := kh
      obtain ⟨e, he, hre, hk, hhx⟩ := hi.1 (k, h) (List.mem_cons_self ..)
      have hp : RPath.goTo j.dir k = place j.dir e := by simp only at hk; rw [← hk]; rfl
      obtain ⟨c', d, h1, h2, h3⟩ := mk he hre hm
      simp only [Job.step, hp, h1]
      exact ⟨⟨hex, stocked_of h3.stock hstk, h2⟩, h3⟩
  | link m k h r created =>
    obtain ⟨hex, hstk, hm⟩ := hF
    obtain ⟨e, he, hre, hk, hhx⟩ := hi.1 (k, h) (List.mem_cons_self ..)
    have hp : RPath.goTo j.dir k = place j.dir e := by simp only at hk; rw [← hk]; rfl
    obtain ⟨fs', h1, h2, h3, h4, h5⟩ := put (m := m) he hre (hstk (k, h) (List.mem_cons_self ..))
    simp only [Job.step, hp, h1] at hdoes ⊢
    have hg : Gives env j (env.untar t).1 fs fs' := .same h2 (fun _ => has_same hs hdoes h3) h4
    exact ⟨⟨hex, stocked_of hg.stock (fun x hx => hstk x (List.mem_cons_of_mem _ hx)), made_of h2 hm⟩, hg⟩
  | fetch cache =>
    obtain ⟨⟨evs, hn, hw⟩, hm, hem⟩ := hF
    have hok : ∃ temp, Tarball.intoTemp env.digest env.limit (.memory []) ⟨j.expected.map fun i => (i, []), evs⟩ = .ok temp := by
      have hft := (hfit t).2 rfl
      unfold Job.Fits at hft
      cases hex : j.expected with
      | some i =>
        rw [hex] at hft
        have hra := readAll_checked env.digest i evs []
        rw [hw] at hra
        simp only [List.nil_append, check_iff.2 hft, if_true] at hra
        obtain ⟨s', h1, _⟩ := (intoTemp_eq env.digest env.limit ⟨some (i, []), evs⟩ (.memory [])).2 _ hra
        exact ⟨s', h1⟩
      | none =>
        have hra := readAll_unchecked env.digest evs
        rw [hw] at hra
        obtain ⟨s', h1, _⟩ := (intoTemp_eq env.digest env.limit ⟨none, evs⟩ (.memory [])).2 _ hra
        exact ⟨s', h1⟩
    obtain ⟨temp, htemp⟩ := hok
    simp only [Job.step, hn, htemp]
    exact still _ ⟨hm, hem⟩
  | folder cache b =>
    obtain ⟨hm, hem⟩ := hF
    obtain ⟨c', fs', h1, h2, _, _, h3, h4⟩ := mkdirp_fine (own_self j) hP.below hup hm
    obtain ⟨d, rfl⟩ := mkdirp_eq h1
    simp only [Job.step, h1]
    refine ⟨⟨h2, fun x hx => (by cases hx), (by rw [hi.1]; exact hem), fun _ => rfl⟩, h3, fun x hx => ?_, fun _ h => h, fun _ _ h => .inl h,
      fun _ idx h => ⟨idx, h⟩⟩
    rcases h4 x hx with h | h
    · exact .inl h
    · exact .inr (.inl h)
  | entry cache b todo s =>
    obtain ⟨hm, hstk, hem, hman⟩ := hF
    obtain ⟨pre, hA, hK⟩ := hi
    cases todo with
    | nil =>
      simp only [Job.step]
      rw [if_pos (by rw [hA.1]; exact hcomp)]
      refine still _ ⟨hstk, fun x hx => ?_⟩
      cases cache with
      | false => rw [hman rfl] at hx; cases hx
      | true =>
        obtain ⟨_, h2, _⟩ := (hK rfl).2 trivial
        have hpre : (env.untar t).1 = pre := by rw [hA.2.2.1, List.append_nil]
        rw [h2, binsOf_commands, ← hpre] at hx
        obtain ⟨e, he, hre, hp⟩ := hP.sound.commands x hx
        exact ⟨e, he, hre, hp _⟩
    | cons e r =>
      simp only [Job.step]
      by_cases hre : e.regular = true
      · rw [if_pos hre]
        have he : e ∈ (env.untar t).1 := by rw [hA.2.2.1]; simp
        obtain ⟨c', d, h1, h2, h3⟩ := mk he hre hm
        have h1' : mkdirp s.created fs (RPath.goTo j.dir (subpath e)).dropLast = some (c', { fs with dirs := d }) := h1
        simp only [h1']
        refine ⟨?_, h3⟩
        cases cache with
        | true => exact ⟨h2, hstk, hem⟩
        | false => exact ⟨h2, hstk, hem, hman rfl⟩
      · rw [if_neg hre]
        exact still _ ⟨hm, hstk, fun x hx => hem x (List.mem_cons_of_mem _ hx), hman⟩
  | plain b e r s =>
    obtain ⟨hm, hstk, hem, hman⟩ := hF
    obtain ⟨pre, hA, hre⟩ := hi
    have he : e ∈ (env.untar t).1 := by rw [hA.2.2.1]; simp
    have hnt : fs.taken (RPath.goTo j.dir (subpath e)) = false := by
      have h1 := hem e (List.mem_cons_self ..) hre
      have h2 := hnd e he hre
      show fs.taken (place j.dir e) = false
      simp [FS.taken, h1, h2]
    simp only [Job.step, hnt, Bool.false_eq_true, if_false] at hdoes ⊢
    have hg : Gives env j (env.untar t).1 fs ((fs.create (RPath.goTo j.dir (subpath e)) e.content).setMode fs.next (env.newMode e.bits)) :=
      .same rfl (fun _ => has_same hs hdoes rfl) rfl
    refine ⟨⟨made_of (a := fs) rfl hm, stocked_of hg.stock hstk, fun e' he' hre' => ?_, fun _ => hman⟩, hg⟩
    have hne := later_ne hP hA.2.2.1 hre he' hre'
    show (upd fs.files (place j.dir e) (some fs.next)) (place j.dir e') = none
    rw [upd_ne _ _ hne]
    exact hem e' (List.mem_cons_of_mem _ he') hre'
  | commit b e r s =>
    obtain ⟨hm, hstk, hem⟩ := hF
    have hg : Gives env j (env.untar t).1 fs (commit env fs e.content) := .same rfl (fun _ => has_commit _ hs) rfl
    exact ⟨⟨made_of (a := fs) rfl hm, stocked_of hg.stock hstk, fun x hx => hem x (List.mem_cons_of_mem _ hx),
      ⟨fs.next, commit_store .., by rw [show (Job.step env j (.commit b e r s) fs).2 = commit env fs e.content from rfl, commit_content]⟩⟩, hg⟩
  | write b e r s =>
    obtain ⟨hm, hstk, hem, hhas⟩ := hF
    obtain ⟨pre, hA, hre, hK, hne⟩ := hi
    have he : e ∈ (env.untar t).1 := by rw [hA.2.2.1]; simp
    obtain ⟨fs', h1, h2, h3, h4, h5⟩ := put (m := s.mode) (h := (env.xxh e.content, e.bits)) he hre hhas
    have h1' : extractFile env s.mode fs (env.xxh e.content, e.bits) (RPath.goTo j.dir (subpath e)) = some fs' := h1
    simp only [Job.step, h1'] at hdoes ⊢
    have hg : Gives env j (env.untar t).1 fs fs' := .same h2 (fun _ => has_same hs hdoes h3) h4
    refine ⟨?_, hg⟩
    have hem' : Empty j r fs' := fun e' he' hre' => by
      rw [h5 _ (later_ne hP hA.2.2.1 hre he' hre')]; exact hem e' he' hre'
    by_cases hpj : subpath e = [Comp.normal kPackageJson]
    · rw [if_pos hpj]
      exact ⟨made_of h2 hm, stocked_of hg.stock hstk, hem', hg.stock _ hhas⟩
    · rw [if_neg hpj]
      refine ⟨made_of h2 hm, fun kh hkh => ?_, hem', fun h => by cases h⟩
      rcases IMap.mem_insert hkh with h | h
      · rw [h]; exact hg.stock _ hhas
      · exact hg.stock _ (hstk kh h)
  | manifest b e r s =>
    obtain ⟨hm, hstk, hem, hhas⟩ := hF
    obtain ⟨pre, hA, hre, hK, hpres, hpj⟩ := hi
    have he : e ∈ (env.untar t).1 := by rw [hA.2.2.1]; simp
    obtain ⟨i, hfi⟩ := Option.isSome_iff_exists.1 hpres
    obtain ⟨m, hmm⟩ := Option.ne_none_iff_exists'.1 (hP.sound.manifest e he hre hpj)
    have hb : ((fs.files (RPath.goTo j.dir (subpath e))).bind fun i => env.manifest (fs.content i)) = some m := by
      have hfi' : fs.files (RPath.goTo j.dir (subpath e)) = some i := hfi
      rw [hfi', Option.bind_some, hcol _ _ (hr e he hre i hfi), hmm]
    have hins : ∀ s' : Book, s'.idx.files = s.idx.files → Stocked env fs (s'.remember env e).idx.files := by
      intro s' hs' kh hkh
      simp only [Book.remember, hs'] at hkh
      rcases IMap.mem_insert hkh with h | h
      · rw [h]; exact hhas
      · exact hstk kh h
    simp only [Job.step, hb]
    split
    · split
      · exact still _ ⟨hm, hins _ rfl, hem, fun h => by cases h⟩
      · refine still _ ⟨hm, hstk, hem, hhas, fun kh hkh => hstk kh ((ho _).mem_iff.1 hkh), fun kh hkh => ?_⟩
        have hfrom : FromEntries env pre s.idx.files := by
          rw [hK.1]; exact listing_from env _ _ [] (fun _ h => h) (by intro x hx; cases hx)
        obtain ⟨e', he', hre', hk', _⟩ := hfrom kh ((ho _).mem_iff.1 hkh)
        rw [← hk']
        exact hA.2.2.2 e' he' hre'
    · exact still _ ⟨hm, hins _ rfl, hem, fun h => by cases h⟩
  | redo b e r s m l =>
    obtain ⟨hm, hstk, hem, hhas, hl, hpr⟩ := hF
    obtain ⟨pre, hA, hre, hK, hpres, hpj, hmc, hfl⟩ := hi
    cases l with
    | nil =>
      refine still _ ⟨hm, fun kh hkh => ?_, hem, fun h => by cases h⟩
      rcases IMap.mem_insert hkh with h | h
      · rw [h]; exact hhas
      · exact hstk kh h
    | cons kh l =>
      obtain ⟨k, h⟩ := kh
      have hx : (fs.files (RPath.goTo j.dir k)).isSome := hpr (k, h) (List.mem_cons_self ..)
      have hrm : fs.remove (RPath.goTo j.dir k) = some { fs with files := upd fs.files (RPath.goTo j.dir k) none } := by
        unfold FS.remove; rw [if_pos hx]
      simp only [Job.step, hrm] at hdoes ⊢
      have hg : Gives env j (env.untar t).1 fs { fs with files := upd fs.files (RPath.goTo j.dir k) none } :=
        .same rfl (fun _ => has_same hs hdoes rfl) rfl
      refine ⟨⟨made_of (a := fs) rfl hm, stocked_of hg.stock hstk, fun e' he' hre' => ?_, hg.stock _ hhas, stocked_of hg.stock hl, fun kh hkh => ?_,
        fun e' he' hre' hpe => ?_⟩, hg⟩
      · simp only [upd]
        split
        · rfl
        · exact hem e' he' hre'
      · by_cases hk : RPath.goTo j.dir kh.1 = RPath.goTo j.dir k
        · exact .inr hk
        · left
          simp only [upd_ne _ _ hk]
          exact hpr kh (List.mem_cons_of_mem _ hkh)
      · rw [← hpe, hem e' he' hre'] at hx; cases hx
  | redone b e r s m k h l =>
    obtain ⟨hm, hstk, hem, hhas, hl, hpr, hnt⟩ := hF
    obtain ⟨pre, h1, h2, h3, hre, hK, hpj, hmc, hfl, hvac, hPr⟩ := hi
    obtain ⟨e', he', hre', hk', hhx⟩ := hfl (k, h) (List.mem_cons_self ..)
    have hp : RPath.goTo j.dir k = place j.dir e' := by simp only at hk'; rw [← hk']; rfl
    obtain ⟨fs', g1, g2, g3, g4, g5⟩ := put (m := .auto) he' hre' (hl (k, h) (List.mem_cons_self ..))
    have hnew : (fs'.files (place j.dir e')).isSome := by
      obtain ⟨_, _, _, hpt⟩ := extractFile_put g1
      exact put_present hpt
    simp only [Job.step, hp, g1] at hdoes ⊢
    have hg : Gives env j (env.untar t).1 fs fs' := .same g2 (fun _ => has_same hs hdoes g3) g4
    refine ⟨⟨made_of g2 hm, stocked_of hg.stock hstk, fun e2 he2 hre2 => ?_, hg.stock _ hhas,
      stocked_of hg.stock (fun x hx => hl x (List.mem_cons_of_mem _ hx)), fun kh hkh => ?_⟩, hg⟩
    · rw [g5 _ (fun hx => hnt e2 he2 hre2 (hx.trans hp.symm))]; exact hem e2 he2 hre2
    · by_cases hx : RPath.goTo j.dir kh.1 = place j.dir e'
      · rw [hx]; exact hnew
      · rw [g5 _ hx]
        exact (hpr kh hkh).resolve_right (fun h => hx (h.trans hp))
  | bins cache b l s =>
    obtain ⟨hstk, hl⟩ := hF
    obtain ⟨hA, hK, hu⟩ := hi
    cases l with
    | nil => exact still _ hstk
    | cons x l =>
      obtain ⟨e, he, hre, hp⟩ := hl x (List.mem_cons_self ..)
      obtain ⟨i, hfi⟩ := Option.isSome_iff_exists.1 (hA.2.2.2 e he hre)
      simp only [Job.step, hp, setBinMode, hfi]
      exact ⟨⟨hstk, fun y hy => hl y (List.mem_cons_of_mem _ hy)⟩, .same rfl (fun _ h => h) rfl⟩
  | record cache b s =>
    obtain ⟨hA, hK, hu⟩ := hi
    refine ⟨by simp only [Job.step, FinePC, hA.1], ?_⟩
    simp only [Job.step]
    cases cache with
    | false => exact .refl
    | true =>
      refine ⟨fun _ h => h, fun _ h => .inl h, fun _ h => h, fun k ce hk => ?_, fun k idx hk => ?_⟩
      · simp only [recordIndex, if_true, upd] at hk
        split at hk
        · cases hk
          exact .inr ⟨_, rfl, hF⟩
        · exact .inl hk
      · simp only [recordIndex, if_true, upd]
        split
        · exact ⟨_, rfl⟩
        · exact ⟨idx, hk⟩
  | done i => exact still _ hF

/-- what others do does not matter -/
theorem fine_other {env : Env} {j : Job} {t pc} {a b : FS}
    (hf : ∀ e ∈ (env.untar t).1, e.regular = true → b.files (place j.dir e) = a.files (place j.dir e))
    (hd : ∀ d, a.dirs d = true → b.dirs d = true) (hnew : ∀ d, Own j d → d ≠ j.dir → b.dirs d = true → a.dirs d = true)
    (hst : ∀ h, Has env a h → Has env b h) (hk : ∀ k idx, a.index k = some (.good idx) → ∃ idx', b.index k = some (.good idx'))
    (hi : PCInv True env j t pc a) (h : FinePC env j t pc a) : FinePC env j t pc b := by
  have made : ∀ {c}, Made j c a → Made j c b := fun hm =>
    ⟨fun d hx => hd d (hm.there d hx), hm.root, fun d h1 h2 h3 => hm.all d h1 h2 (hnew d h1 h2 h3)⟩
  have empty : ∀ {l}, (∀ e ∈ l, e ∈ (env.untar t).1) → Empty j l a → Empty j l b := fun hl he e h1 h2 => by
    rw [hf e (hl e h1) h2]; exact he e h1 h2
  have stk : ∀ {l}, Stocked env a l → Stocked env b l := fun hl => stocked_of hst hl
  have hfrom : ∀ {l : Files}, FromEntries env (env.untar t).1 l → ∀ kh ∈ l, b.files (RPath.goTo j.dir kh.1) = a.files (RPath.goTo j.dir kh.1) := by
    intro l hl kh hkh
    obtain ⟨e, he, hr, hk, _⟩ := hl kh hkh
    rw [← hk]; exact hf e he hr
  cases pc with
  | start =>
    refine ⟨?_, made h.2⟩
    rcases h.1 with h | ⟨h1, i, idx, h2, h3⟩
    · exact .inl h
    · obtain ⟨idx', h4⟩ := hk i idx h3
      exact .inr ⟨h1, i, idx', h2, h4⟩
  | linkDir => exact ⟨h.1, stk h.2.1, made h.2.2⟩
  | link => exact ⟨h.1, stk h.2.1, made h.2.2⟩
  | evict => exact h.elim
  | failed => exact h.elim
  | fetch => exact ⟨h.1, made h.2.1, empty (fun _ h => h) h.2.2⟩
  | folder => exact ⟨made h.1, empty (fun _ h => h) h.2⟩
  | entry c bb todo s =>
    obtain ⟨pre, hA, _⟩ := hi
    exact ⟨made h.1, stk h.2.1, empty (fun e he => by rw [hA.2.2.1]; simp [he]) h.2.2.1, h.2.2.2⟩
  | plain bb e todo s =>
    obtain ⟨pre, hA, _⟩ := hi
    exact ⟨made h.1, stk h.2.1, empty (fun e he => by rw [hA.2.2.1]; exact List.mem_append_right _ he) h.2.2.1, h.2.2.2⟩
  | commit bb e todo s =>
    obtain ⟨pre, hA, _⟩ := hi
    exact ⟨made h.1, stk h.2.1, empty (fun e he => by rw [hA.2.2.1]; exact List.mem_append_right _ he) h.2.2⟩
  | write bb e todo s =>
    obtain ⟨pre, hA, _⟩ := hi
    exact ⟨made h.1, stk h.2.1, empty (fun e he => by rw [hA.2.2.1]; simp [he]) h.2.2.1, hst _ h.2.2.2⟩
  | manifest bb e todo s =>
    obtain ⟨pre, hA, _⟩ := hi
    exact ⟨made h.1, stk h.2.1, empty (fun e he => by rw [hA.2.2.1]; simp [he]) h.2.2.1, hst _ h.2.2.2⟩
  | redo bb e todo s m l =>
    obtain ⟨pre, hA, hr1, hK, hpr, hpj, hmc, hl⟩ := hi
    exact ⟨made h.1, stk h.2.1, empty (fun e he => by rw [hA.2.2.1]; simp [he]) h.2.2.1, hst _ h.2.2.2.1, stk h.2.2.2.2.1,
      fun kh hkh => by rw [hfrom hl kh hkh]; exact h.2.2.2.2.2 kh hkh⟩
  | redone bb e todo s m k hh l =>
    obtain ⟨pre, h1, h2, h3, hre, hK, hpj, hmc, hl, hvac, hPr⟩ := hi
    exact ⟨made h.1, stk h.2.1, empty (fun e he => by rw [h3]; simp [he]) h.2.2.1, hst _ h.2.2.2.1, stk h.2.2.2.2.1,
      fun kh hkh => by rw [hfrom hl kh (List.mem_cons_of_mem _ hkh)]; exact h.2.2.2.2.2.1 kh hkh, h.2.2.2.2.2.2⟩
  | bins => exact ⟨stk h.1, h.2⟩
  | record => exact stk h
  | done => exact h

/-- the invariant of extractions that all go well -/
structure Fine (env : Env) (jobs : Nat → Option Job) (tar : Nat → Bytes) (o : FS) (w : Runs) : Prop where
  inv : Inv True env jobs tar o w
  pc : ∀ n j, jobs n = some j → FinePC env j (tar n) (w.pcs n) w.fs
  dirs : ∀ n j, jobs n = some j → ∀ d, Own j d → d ≠ j.dir → w.fs.dirs d = true →
    ∃ e ∈ (env.untar (tar n)).1, e.regular = true ∧ d <+: (place j.dir e).dropLast
  index : ∀ n j, jobs n = some j → ∀ i, j.expected = some i → ∀ ce, w.fs.index i = some ce →
    ∃ idx, ce = .good idx ∧ Stocked env w.fs idx.files

theorem Ready.place {env : Env} {jobs tar fs} (h : Ready env jobs tar fs) {n j} (hj : jobs n = some j) :
    Place env j (env.untar (tar n)).1 :=
  ⟨h.sound n j hj, h.plain n j hj, h.unbundled n j hj, h.below n j hj⟩

theorem Ready.separate {env : Env} {jobs tar fs} (h : Ready env jobs tar fs) : Separate env jobs tar where
  fits n j hj t ht := (h.fits n j hj t).1 ht
  plain := h.plain
  distinct n j hj e he hr e' he' hr' hx := by
    have := sound_eq (h.sound n j hj) he he' hr hr'
      (place_prefix (dir := j.dir) (h.plain n j hj e he hr) (h.plain n j hj e' he' hr') (by rw [hx]))
    rw [this]
  apart n j hj n' j' hj' hne e he hr e' he' hr' hx := by
    have h1 := ((h.place hj).own he hr).1
    have h2 := ((h.place hj').own he' hr').1
    rw [← hx] at h2
    exact own_disjoint h.laid hj hj' hne h1 h2

/-- files are only where they belong -/
theorem no_file {env : Env} {jobs tar o} (h : Ready env jobs tar o) {w} (hi : Inv True env jobs tar o w) {n j} (hj : jobs n = some j)
    {q : Loc} (hq : (Own j q ∧ ∀ e ∈ (env.untar (tar n)).1, e.regular = true → Tar.place j.dir e ≠ q) ∨ q <+: j.dir) : w.fs.files q = none := by
  rw [hi.files q]
  · rcases hq with hq | hq
    · exact h.files n j hj q hq.1.1
    · exact h.above n j hj q hq
  · intro n' j' hj' e he hr hx
    have ho := (h.place hj').own he hr
    rw [hx] at ho
    by_cases hne : n' = n
    · subst hne
      rw [hj] at hj'; cases hj'
      rcases hq with hq | hq
      · exact hq.2 e he hr hx
      · exact ho.2 (List.IsPrefix.eq_of_length_le hq (List.IsPrefix.length_le ho.1.1))
    · rcases hq with hq | hq
      · exact own_disjoint h.laid hj' hj hne ho.1 hq.1
      · exact ho.2 (own_above h.laid hj' hj hne ho.1 hq)

theorem fine_init {env : Env} {jobs tar o} (hs : Sane o) (hh : HonestF True env o) (h : Ready env jobs tar o) :
    Fine env jobs tar o (Runs.init o) where
  inv := inv_init hs hh h.separate h.files
  pc n j hj := by
    refine ⟨h.served n j hj, fun d hd => (by cases hd), .inl rfl, fun d ho hne hd => ?_⟩
    rw [show (Runs.init o).fs.dirs d = o.dirs d from rfl, h.dirs n j hj d ho.1 hne] at hd
    cases hd
  dirs n j hj d ho hne hd := by
    rw [show (Runs.init o).fs.dirs d = o.dirs d from rfl, h.dirs n j hj d ho.1 hne] at hd
    cases hd
  index := h.cached

theorem fine_step {env : Env} {jobs tar o w n} (ho : ∀ f, (env.ord f).Perm f) (hcol : NoCol env) (h : Ready env jobs tar o)
    (hF : Fine env jobs tar o w) : Fine env jobs tar o (w.step env jobs n) := by
  have hinv := inv_step (n := n) ho (fun _ => hcol) h.separate hF.inv
  unfold Runs.step at hinv ⊢
  cases hj : jobs n with
  | none => exact hF
  | some j =>
    simp only [hj] at hinv ⊢
    have hP := h.place hj
    have hst := step_ok ho (fun _ => hcol) (h.separate.fits n j hj) (h.plain n j hj) (h.separate.distinct n j hj) hF.inv.sane
      (hF.inv.right n j hj) hF.inv.honest (hF.inv.pc n j hj)
    have hnd : ∀ e ∈ (env.untar (tar n)).1, e.regular = true → w.fs.dirs (Tar.place j.dir e) = false := by
      intro e he hr
      cases hx : w.fs.dirs (Tar.place j.dir e) with
      | false => rfl
      | true =>
        obtain ⟨e', he', hr', hp⟩ := hF.dirs n j hj _ (hP.own he hr).1 (hP.own he hr).2 hx
        exact (hP.not_within he hr he' hr' hp).elim
    have hnf : ∀ e ∈ (env.untar (tar n)).1, e.regular = true → ∀ q, q <+: (Tar.place j.dir e).dropLast → w.fs.files q = none := by
      intro e he hr q hq
      rcases List.prefix_or_prefix_of_prefix hq (hP.parent he hr).1.1 with hx | hx
      · exact no_file h hF.inv hj (.inr hx)
      · refine no_file h hF.inv hj (.inl ⟨own_between (hP.parent he hr).1 hq hx, fun e' he' hr' hpe => ?_⟩)
        exact hP.not_within he' hr' he hr (by rw [hpe]; exact hq)
    obtain ⟨hpc, hg⟩ := step_fine ho hcol hP (h.fits n j hj) (h.complete n j hj) hF.inv.sane (hF.inv.right n j hj) hst
      (hF.inv.pc n j hj) (hF.pc n j hj) (fun q hq => no_file h hF.inv hj (.inr hq)) hnf hnd (hF.index n j hj)
    have hnew : ∀ n' j', jobs n' = some j' → n' ≠ n → ∀ d, Own j' d → d ≠ j'.dir →
        (j.step env (w.pcs n) w.fs).2.dirs d = true → w.fs.dirs d = true := by
      intro n' j' hj' hne d hod hdd hd
      rcases hg.new d hd with hx | hx | ⟨e, he, hr, hx⟩
      · exact hx
      · exact absurd (own_above h.laid hj' hj hne hod hx) hdd
      · rcases List.prefix_or_prefix_of_prefix hx (hP.parent he hr).1.1 with hy | hy
        · exact absurd (own_above h.laid hj' hj hne hod hy) hdd
        · exact (own_disjoint h.laid hj' hj hne hod (own_between (hP.parent he hr).1 hx hy)).elim
    exact {
      inv := hinv
      pc := fun n' j' hj' => by
        by_cases hne : n' = n
        · subst hne
          rw [hj] at hj'; cases hj'
          simp only [upd_self]
          exact hpc
        · simp only [upd_ne _ _ hne]
          refine fine_other (fun e he hr => ?_) hg.dirs (hnew n' j' hj' hne) hg.stock hg.keeps (hF.inv.pc n' j' hj') (hF.pc n' j' hj')
          exact hst.1.files _ (fun e2 he2 hr2 hx => h.separate.apart n j hj n' j' hj' (Ne.symm hne) e2 he2 hr2 e he hr hx)
      dirs := fun n' j' hj' d hod hdd hd => by
        by_cases hne : n' = n
        · subst hne
          rw [hj] at hj'; cases hj'
          rcases hg.new d hd with hx | hx | hx
          · exact hF.dirs _ _ hj d hod hdd hx
          · exact absurd (List.IsPrefix.eq_of_length_le hx (List.IsPrefix.length_le hod.1)) hdd
          · exact hx
        · exact hF.dirs n' j' hj' d hod hdd (hnew n' j' hj' hne d hod hdd hd)
      index := fun n' j' hj' i hi ce hce => by
        rcases hg.index i ce hce with hx | hx
        · obtain ⟨idx, h1, h2⟩ := hF.index n' j' hj' i hi ce hx
          exact ⟨idx, h1, stocked_of hg.stock h2⟩
        · exact hx }

theorem fine_run {env : Env} {jobs tar o} (ho : ∀ f, (env.ord f).Perm f) (hcol : NoCol env) (h : Ready env jobs tar o)
    (sched : List Nat) (w : Runs) (hF : Fine env jobs tar o w) : Fine env jobs tar o (w.run env jobs sched) := by
  induction sched generalizing w with
  | nil => exact hF
  | cons n r ih => exact ih _ (fine_step ho hcol h hF)

end Tar
end Oro
