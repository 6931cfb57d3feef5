import Verif.Spec.Modes
import Verif.Proofs.TarMain
import Verif.Proofs.Bins
import Verif.Proofs.Folder
/-
The permission bits of extracted files.
-/

set_option linter.unusedSectionVars false

namespace Oro
namespace Tar

theorem apart_eq {dir es a b} (h : Apart dir es) (ha : a ∈ es) (hb : b ∈ es) (ra : a.regular = true)
    (rb : b.regular = true) (hp : place dir a = place dir b) : a = b := by
  have key : ∀ l : List Entry, l.Pairwise (fun a b => place dir a ≠ place dir b) → a ∈ l → b ∈ l → a = b := by
    intro l hl h1 h2
    induction l with
    | nil => cases h1
    | cons x r ih =>
      rw [List.pairwise_cons] at hl
      rcases List.mem_cons.1 h1 with rfl | h1 <;> rcases List.mem_cons.1 h2 with rfl | h2
      · rfl
      · exact absurd hp (hl.1 b h2)
      · exact absurd hp.symm (hl.1 a ‹a ∈ r›)
      · exact ih hl.2 h1 h2
  exact key _ h (List.mem_filter.2 ⟨ha, ra⟩) (List.mem_filter.2 ⟨hb, rb⟩)

/-- a file taken from the cache where there was none -/
structure New (env : Env) (m : Mode) (h : Str × Nat) (p : Loc) (fs fs' : FS) (i : Nat) : Prop where
  files : fs'.files = upd fs.files p (some i)
  other : ∀ j, j ≠ i → fs'.mode j = fs.mode j
  which : i = fs.next ∨ (m.isCopy = false ∧ fs.store h.1 = some i)
  bits : h.2 ≠ 0o644 → fs'.mode i = h.2
  plain : h.2 = 0o644 → (i = fs.next ∧ ∃ x, fs'.mode i = env.cloneMode x ∨ fs'.mode i = env.copyMode x none) ∨
    (fs.store h.1 = some i ∧ fs'.mode i = fs.mode i)
  store : fs'.store = fs.store

/-- the same without permission bits being set at the end -/
structure New0 (env : Env) (m : Mode) (h : Str) (p : Loc) (fs fs' : FS) (i : Nat) : Prop where
  files : fs'.files = upd fs.files p (some i)
  other : ∀ j, j ≠ i → fs'.mode j = fs.mode j
  which : i = fs.next ∨ (m.isCopy = false ∧ fs.store h = some i)
  plain : (i = fs.next ∧ ∃ x, fs'.mode i = env.cloneMode x ∨ fs'.mode i = env.copyMode x none) ∨
    (fs.store h = some i ∧ fs'.mode i = fs.mode i)
  store : fs'.store = fs.store

theorem hardLink_new {env fs h p fs' m} (hm : m.isCopy = false) (hx : hardLink env fs h p = some fs') :
    ∃ i, New0 env m h p fs fs' i := by
  unfold hardLink at hx
  split at hx
  · cases hx
  · rename_i i hv
    split at hx
    · cases hx
      exact ⟨i, rfl, fun _ _ => rfl, .inr ⟨hm, (verified_some hv).1⟩, .inr ⟨(verified_some hv).1, rfl⟩, rfl⟩
    · cases hx

theorem reflink_new {env fs h p fs' m} (hx : reflink env fs h p = some fs') : ∃ i, New0 env m h p fs fs' i := by
  unfold reflink at hx
  split at hx
  · cases hx
  · rename_i i hv
    split at hx
    · cases hx
      exact ⟨fs.next, rfl, fun j hj => upd_ne _ _ hj, .inl rfl, .inl ⟨rfl, fs.mode i, .inl (upd_self ..)⟩, rfl⟩
    · cases hx

theorem copyTo_new {env fs h p fs' m} (hn : fs.files p = none) (hx : copyTo env fs h p = some fs') :
    ∃ i, New0 env m h p fs fs' i := by
  unfold copyTo at hx
  split at hx
  · cases hx
  · rename_i i hv
    split at hx
    · cases hx
    · rw [hn] at hx
      cases hx
      exact ⟨fs.next, rfl, fun j hj => upd_ne _ _ hj, .inl rfl, .inl ⟨rfl, fs.mode i, .inr (upd_self ..)⟩, rfl⟩

theorem linkFile_new {env m fs h p fs'} (hn : fs.files p = none) (hx : linkFile env m fs h p = some fs') :
    ∃ i, New0 env m h p fs fs' i := by
  have two : (reflink env fs h p).or (copyTo env fs h p) = some fs' → ∃ i, New0 env m h p fs fs' i := by
    intro hx
    rw [Option.or_eq_some_iff] at hx
    rcases hx with hx | ⟨_, hx⟩
    · exact reflink_new hx
    · exact copyTo_new hn hx
  have three : m.isCopy = false → ((hardLink env fs h p).or (reflink env fs h p)).or (copyTo env fs h p) = some fs' →
      ∃ i, New0 env m h p fs fs' i := by
    intro hm hx
    rw [Option.or_assoc, Option.or_eq_some_iff] at hx
    rcases hx with hx | ⟨_, hx⟩
    · exact hardLink_new hm hx
    · exact two hx
  cases m with
  | auto => exact two hx
  | reflink => exact two hx
  | copy => exact copyTo_new hn hx
  | autoHardlink => exact three rfl hx
  | hardlink => exact three rfl hx

theorem extractFile_new {env m fs h p fs'} (hn : fs.files p = none) (hx : extractFile env m fs h p = some fs') :
    ∃ i, New env m h p fs fs' i := by
  simp only [extractFile, Option.map_eq_some_iff] at hx
  obtain ⟨fs1, h1, h2⟩ := hx
  obtain ⟨i, n⟩ := linkFile_new hn h1
  refine ⟨i, ?_⟩
  split at h2
  · rename_i he
    subst h2
    exact ⟨n.files, n.other, n.which, fun h => absurd he h, fun _ => n.plain, n.store⟩
  · rename_i he
    have hf : fs1.files p = some i := by rw [n.files, upd_self]
    simp only [FS.chmod, hf, FS.setMode] at h2
    subst h2
    exact ⟨n.files, fun j hj => (upd_ne _ _ hj).trans (n.other j hj), n.which, fun _ => upd_self .., fun h => absurd h he,
      n.store⟩

/-! ### A new extraction -/

/-- the permission bits of this file are known -/
def Known (env : Env) (e : Entry) : Prop := Ordinary env ∨ e.mode ||| 0o600 ≠ 0o644

/-- the files extracted so far -/
structure FInv (env : Env) (dir : Loc) (done : List Entry) (fs : FS) : Prop where
  sane : Sane fs
  bits : ∀ e ∈ done, e.regular = true → Known env e → Bits fs (place dir e) e.bits
  only : ∀ p, Inside dir p → fs.files p ≠ none → ∃ e ∈ done, e.regular = true ∧ place dir e = p
  inj : ∀ p q i, Inside dir p → fs.files p = some i → fs.files q = some i → p = q

theorem FInv.add {env dir done fs fs' e i} (h : FInv env dir done fs) (hr : e.regular = true)
    (hs : Sane fs') (hf : fs'.files = upd fs.files (place dir e) (some i)) (hi : ∀ q, fs.files q ≠ some i)
    (hm : ∀ q j, fs.files q = some j → fs'.mode j = fs.mode j) (hb : Known env e → fs'.mode i = e.bits)
    (hap : ∀ e' ∈ done, e'.regular = true → place dir e' = place dir e → e'.mode = e.mode) :
    FInv env dir (done ++ [e]) fs' where
  sane := hs
  bits e' he' hr' hk := by
    rcases List.mem_append.1 he' with he' | he'
    · by_cases hp : place dir e' = place dir e
      · have hmode := hap e' he' hr' hp
        refine ⟨i, by rw [hf, hp, upd_self], ?_⟩
        rw [hb (by unfold Known at *; rw [← hmode]; exact hk)]
        simp only [Entry.bits, hmode]
      · obtain ⟨j, hj, hmj⟩ := h.bits e' he' hr' hk
        exact ⟨j, by rw [hf, upd_ne _ _ hp, hj], by rw [hm _ j hj, hmj]⟩
    · simp only [List.mem_singleton] at he'
      subst he'
      exact ⟨i, by rw [hf, upd_self], hb hk⟩
  only p hp hne := by
    by_cases hpe : p = place dir e
    · exact ⟨e, by simp, hr, hpe.symm⟩
    · rw [hf, upd_ne _ _ hpe] at hne
      obtain ⟨e', he', h1, h2⟩ := h.only p hp hne
      exact ⟨e', List.mem_append_left _ he', h1, h2⟩
  inj p q j hp h1 h2 := by
    rw [hf] at h1 h2
    by_cases hpe : p = place dir e
    · by_cases hqe : q = place dir e
      · rw [hpe, hqe]
      · rw [hpe, upd_self] at h1
        cases h1
        rw [upd_ne _ _ hqe] at h2
        exact absurd h2 (hi q)
    · by_cases hqe : q = place dir e
      · rw [hqe, upd_self] at h2
        cases h2
        rw [upd_ne _ _ hpe] at h1
        exact absurd h1 (hi p)
      · rw [upd_ne _ _ hpe] at h1
        rw [upd_ne _ _ hqe] at h2
        exact h.inj p q j hp h1 h2

theorem FInv.less {env dir done fs e} (h : FInv env dir (done ++ [e]) fs) (he : e ∈ done) : FInv env dir done fs where
  sane := h.sane
  bits e' he' := h.bits e' (List.mem_append_left _ he')
  only p hp hne := by
    obtain ⟨e', he', h1, h2⟩ := h.only p hp hne
    rcases List.mem_append.1 he' with he' | he'
    · exact ⟨e', he', h1, h2⟩
    · simp only [List.mem_singleton] at he'
      exact ⟨e', he' ▸ he, h1, h2⟩
  inj := h.inj

theorem FInv.dirs {env dir done fs d} (h : FInv env dir done fs) : FInv env dir done { fs with dirs := d } :=
  ⟨h.sane, h.bits, h.only, h.inj⟩

/-- the index built so far lists files with their permission bits -/
def IdxBits (done : List Entry) (l : List (List Comp × (Str × Nat))) : Prop :=
  ∀ kh ∈ l, ∃ e ∈ done, e.regular = true ∧ subpath e = kh.1 ∧ e.bits = kh.2.2

theorem fresh_not {fs : FS} (hs : Sane fs) {i} (hi : fs.next ≤ i) (q : Loc) : fs.files q ≠ some i :=
  fun h => by have := hs.1 q i h; omega

theorem bits_of {env : Env} {e : Entry} {m h p fs fs' i} (n : New env m (h, e.bits) p fs fs' i)
    (hst : ∀ i, fs.store h = some i → i ≠ fs.next → Ordinary env → fs.mode i = 0o644) (hsane : Sane fs)
    (hk : Known env e) : fs'.mode i = e.bits := by
  by_cases hb : e.bits = 0o644
  · rcases hk with ho | hk
    · rcases n.plain hb with ⟨_, x, h | h⟩ | ⟨h1, h2⟩
      · rw [h, ho.clone, hb]
      · rw [h, ho.copy, hb]
      · rw [h2, hst i h1 (by have := hsane.2 _ _ h1; omega) ho, hb]
    · exact absurd hb hk
  · exact n.bits hb

theorem reExtract_inv {env dir done} (hap : Apart dir done) (l : List (List Comp × (Str × Nat))) (hl : IdxBits done l)
    (fs fs' : FS) (h : FInv env dir done fs) (hx : reExtract env dir l fs = .ok fs') : FInv env dir done fs' := by
  induction l generalizing fs with
  | nil => simp only [reExtract, Except.ok.injEq] at hx; exact hx ▸ h
  | cons kh r ih =>
    obtain ⟨k, x⟩ := kh
    obtain ⟨e, he, hr, hk, hb⟩ := hl (k, x) (List.mem_cons_self ..)
    simp only at hk hb
    have hpl : RPath.goTo dir k = place dir e := by rw [← hk]; rfl
    simp only [reExtract, hpl] at hx
    split at hx
    · cases hx
    · rename_i fs1 h1
      have e1 := remove_eq h1
      split at hx
      · cases hx
      · rename_i fs2 h2
        have hn : fs1.files (place dir e) = none := by rw [e1]; exact upd_self ..
        have s1 : Sane fs1 := by
          refine ⟨fun q i hq => ?_, by rw [e1]; exact h.sane.2⟩
          rw [e1] at hq ⊢
          simp only [upd] at hq
          split at hq
          · cases hq
          · exact h.sane.1 q i hq
        obtain ⟨i, n⟩ := extractFile_new hn h2
        have hi : i = fs1.next := by
          rcases n.which with h | ⟨h, _⟩
          · exact h
          · cases h
        have hnx : fs1.next = fs.next := by rw [e1]
        have hs2 : Sane fs2 := by
          obtain ⟨j, hst, _, hp⟩ := extractFile_put h2
          exact sane_put s1 (s1.2 _ _ hst) hp
        refine ih (fun y hy => hl y (List.mem_cons_of_mem _ hy)) fs2 (FInv.less (h.add hr hs2 (i := i) ?_ ?_ ?_ ?_ ?_) he) hx
        · rw [n.files, e1]
          funext q
          by_cases hq : q = place dir e
          · simp only [hq, upd_self]
          · simp only [upd_ne _ _ hq]
        · exact fresh_not h.sane (by omega)
        · intro q j hq
          have := h.sane.1 q j hq
          rw [n.other j (by omega), e1]
        · intro hk
          obtain ⟨x1, x2⟩ := x
          simp only at hb
          subst hb
          by_cases hb2 : e.bits = 0o644
          · rcases hk with ho | hk
            · rcases n.plain hb2 with ⟨_, y, h | h⟩ | ⟨h1, _⟩
              · rw [h, ho.clone, hb2]
              · rw [h, ho.copy, hb2]
              · have := s1.2 _ _ h1; omega
            · exact absurd hb2 hk
          · exact n.bits hb2
        · intro e' he' hr' hp'
          rw [apart_eq hap he' he hr' hr hp']

theorem onScripts_inv {env : Env} {dir done m s s'} (ho : ∀ f, (env.ord f).Perm f)
    (hi : IdxBits done s.idx.files) (hn : FInv env dir done s.fs) (hap : Apart dir done)
    (h : onScripts env dir m s = .ok s') : FInv env dir done s'.fs ∧ s'.idx.files = s.idx.files := by
  unfold onScripts at h
  split at h
  · split at h
    · cases h; exact ⟨hn, rfl⟩
    · split at h <;> rename_i h1
      · cases h
      · cases h
        exact ⟨reExtract_inv hap _ (fun x hx => hi x ((ho _).mem_iff.1 hx)) _ _ hn h1, rfl⟩
  · cases h; exact ⟨hn, rfl⟩

theorem onManifest_inv {env : Env} {dir done p s s'} (ho : ∀ f, (env.ord f).Perm f) (hap : Apart dir done)
    (hi : IdxBits done s.idx.files) (hn : FInv env dir done s.fs)
    (h : onManifest env dir p s = .ok s') : FInv env dir done s'.fs ∧ s'.idx.files = s.idx.files := by
  unfold onManifest at h
  split at h
  · cases h
  · split at h <;> rename_i h1
    · cases h
    · cases h
      have := onScripts_inv ho hi hn hap h1
      exact this

theorem idxBits_mono {done e l} (h : IdxBits done l) : IdxBits (done ++ [e]) l := fun x hx =>
  let ⟨e, he, h⟩ := h x hx
  ⟨e, List.mem_append_left _ he, h⟩

theorem remember_bits {env : Env} {done e s} (hr : e.regular = true) (h : IdxBits (done ++ [e]) s.idx.files) :
    IdxBits (done ++ [e]) (remember env e s).idx.files := by
  intro x hx
  rcases IMap.mem_insert hx with rfl | hx
  · exact ⟨e, by simp, hr, rfl, rfl⟩
  · exact h x hx

theorem putCached_inv {env : Env} {dir done e s s'} (ho : ∀ f, (env.ord f).Perm f) (hap : Apart dir (done ++ [e]))
    (hin : Inside dir (place dir e)) (hr : e.regular = true) (hi : IdxBits done s.idx.files) (hn : FInv env dir done s.fs)
    (h : putCached env dir e s = .ok s') : FInv env dir (done ++ [e]) s'.fs ∧ IdxBits (done ++ [e]) s'.idx.files := by
  have hsep : ∀ e' ∈ done, e'.regular = true → place dir e' ≠ place dir e := by
    intro e' he' hr'
    unfold Apart at hap
    rw [List.filter_append, List.pairwise_append] at hap
    exact hap.2.2 e' (List.mem_filter.2 ⟨he', hr'⟩) e (by simp [hr])
  have hvac : s.fs.files (place dir e) = none := by
    by_contra hne
    obtain ⟨e', he', hr', hp⟩ := hn.only _ hin hne
    exact hsep e' he' hr' hp
  unfold putCached at h
  simp only at h
  split at h
  · cases h
  · rename_i fs1 h1
    obtain ⟨i, n⟩ := extractFile_new (fs := commit env s.fs e.content) (p := place dir e) hvac h1
    have sc := sane_commit (env := env) (c := e.content) hn.sane
    have hs1 : Sane fs1 := by
      obtain ⟨j, hst, _, hp⟩ := extractFile_put h1
      exact sane_put sc (sc.2 _ _ hst) hp
    have hge : s.fs.next ≤ i := by
      rcases n.which with h | ⟨_, h⟩
      · rw [h]; simp [commit]
      · rw [commit_store] at h; cases h; exact Nat.le_refl _
    have f1 : FInv env dir (done ++ [e]) fs1 := by
      refine hn.add hr hs1 (i := i) n.files (fresh_not hn.sane hge) ?_ ?_ (fun e' he' hr' hp => absurd hp (hsep e' he' hr'))
      · intro q j hq
        have := hn.sane.1 q j hq
        rw [n.other j (by omega)]
        simp only [commit]
        exact upd_ne _ _ (by omega)
      · intro hk
        refine bits_of n (fun i hi _ ho => ?_) sc hk
        rw [commit_store] at hi
        cases hi
        simp only [commit, upd_self, ho.store]
    split at h
    · split at h <;> rename_i h2
      · cases h
      · cases h
        obtain ⟨f2, i2⟩ := onManifest_inv (s := { s with fs := fs1 }) ho hap (idxBits_mono hi) f1 h2
        exact ⟨f2, remember_bits hr (by rw [i2]; exact idxBits_mono hi)⟩
    · cases h
      exact ⟨f1, remember_bits hr (idxBits_mono hi)⟩

theorem extractEntry_inv {env : Env} {dir done e s s'} (ho : ∀ f, (env.ord f).Perm f) (hap : Apart dir (done ++ [e]))
    (hin : e.regular = true → Inside dir (place dir e)) (hi : IdxBits done s.idx.files) (hn : FInv env dir done s.fs)
    (h : extractEntry env dir true s e = .ok s') : FInv env dir (done ++ [e]) s'.fs ∧ IdxBits (done ++ [e]) s'.idx.files := by
  unfold extractEntry at h
  split at h
  · rename_i hr
    split at h
    · cases h
    · rename_i created fs1 h1
      obtain ⟨d, rfl⟩ := mkdirp_eq h1
      simp only [↓reduceIte] at h
      exact putCached_inv ho hap (hin hr) hr (s := { s with created := created, fs := { s.fs with dirs := d } }) hi hn.dirs h
  · rename_i hr
    cases h
    refine ⟨⟨hn.sane, fun e' he' hr' => ?_, fun p hp hne => ?_, hn.inj⟩, idxBits_mono hi⟩
    · rcases List.mem_append.1 he' with he' | he'
      · exact hn.bits e' he' hr'
      · simp only [List.mem_singleton] at he'
        exact absurd (he' ▸ hr') hr
    · obtain ⟨e', he', h⟩ := hn.only p hp hne
      exact ⟨e', List.mem_append_left _ he', h⟩

theorem extractEntries_inv {env : Env} {dir} (ho : ∀ f, (env.ord f).Perm f) (l done : List Entry) (s s' : XSt)
    (hap : Apart dir (done ++ l)) (hc : Contained l) (hi : IdxBits done s.idx.files) (hn : FInv env dir done s.fs)
    (h : extractEntries env dir true l s = .ok s') : FInv env dir (done ++ l) s'.fs := by
  induction l generalizing done s with
  | nil => simp only [extractEntries, Except.ok.injEq] at h; subst h; simpa using hn
  | cons e r ih =>
    simp only [extractEntries] at h
    split at h
    · cases h
    · rename_i s1 h1
      have hsplit : done ++ e :: r = (done ++ [e]) ++ r := by simp
      have hap1 : Apart dir (done ++ [e]) := by
        rw [hsplit] at hap
        unfold Apart at hap ⊢
        rw [List.filter_append, List.pairwise_append] at hap
        exact hap.1
      obtain ⟨f1, i1⟩ := extractEntry_inv ho hap1 (fun hr => place_inside hc (List.mem_cons_self ..) hr) hi hn h1
      rw [hsplit]
      exact ih (done ++ [e]) s1 (by rwa [hsplit] at hap) (fun x hx => hc x (List.mem_cons_of_mem _ hx)) i1 f1 h

/-! ### Commands -/

theorem setBinModes_modes {dir} (l : List Str) (fs fs' : FS)
    (hinj : ∀ p q i, Inside dir p → fs.files p = some i → fs.files q = some i → p = q)
    (h : setBinModes dir l fs = .ok fs') : ∀ p i, Inside dir p → fs.files p = some i →
      fs'.mode i = if ∃ b ∈ l, RPath.goTo dir (RPath.components b) = p then fs.mode i ||| 0o111 else fs.mode i := by
  induction l generalizing fs with
  | nil => simp only [setBinModes, Except.ok.injEq] at h; subst h; simp
  | cons b r ih =>
    simp only [setBinModes] at h
    split at h
    · cases h
    · rename_i fs1 h1
      intro p i hp hf
      obtain ⟨mo, hmo⟩ := setBinMode_eq h1
      have hfiles : fs1.files = fs.files := by rw [hmo]
      have := ih fs1 (by rw [hfiles]; exact hinj) h p i hp (by rw [hfiles]; exact hf)
      rw [this]
      have hm1 : fs1.mode i = if RPath.goTo dir (RPath.components b) = p then fs.mode i ||| 0o111 else fs.mode i := by
        unfold setBinMode at h1
        split at h1
        · rename_i j hj
          cases h1
          by_cases hq : RPath.goTo dir (RPath.components b) = p
          · rw [hq, hf] at hj
            cases hj
            rw [if_pos hq]
            exact upd_self ..
          · rw [if_neg hq]
            have : i ≠ j := by
              rintro rfl
              exact hq (hinj p _ i hp hf hj).symm
            exact upd_ne _ _ this
        · rename_i hnone
          have hq : RPath.goTo dir (RPath.components b) ≠ p := by
            rintro rfl
            rw [hf] at hnone; cases hnone
          rw [if_neg hq]
          split at h1
          · cases h1; rfl
          · cases h1
      rw [hm1]
      by_cases h2 : RPath.goTo dir (RPath.components b) = p
      · by_cases h3 : ∃ b' ∈ r, RPath.goTo dir (RPath.components b') = p
        · rw [if_pos h3, if_pos h2, if_pos ⟨b, List.mem_cons_self .., h2⟩, Nat.or_assoc, Nat.or_self]
        · rw [if_neg h3, if_pos h2, if_pos ⟨b, List.mem_cons_self .., h2⟩]
      · rw [if_neg h2]
        by_cases h3 : ∃ b' ∈ r, RPath.goTo dir (RPath.components b') = p
        · obtain ⟨b', hb', hp'⟩ := h3
          rw [if_pos ⟨b', hb', hp'⟩, if_pos ⟨b', List.mem_cons_of_mem _ hb', hp'⟩]
        · rw [if_neg h3, if_neg]
          rintro ⟨b', hb', hp'⟩
          rcases List.mem_cons.1 hb' with rfl | hb'
          · exact h2 hp'
          · exact h3 ⟨b', hb', hp'⟩

theorem extractTemp_bits {env : Env} {dir ex mode b fs k fs'} (ho : ∀ f, (env.ord f).Perm f) (hs : Sane fs)
    (hv : Vacant fs dir) (hc : Contained (env.untar b).1) (hap : Apart dir (env.untar b).1)
    (h : extractTemp env dir true ex mode b fs = (some k, fs')) :
    ∀ e ∈ (env.untar b).1, e.regular = true → Known env e →
      Bits fs' (place dir e) (wanted env dir (env.untar b).1 e) := by
  obtain ⟨d, created, s, h1, hu, _, fs2, hb2, hfs⟩ := extractTemp_some h
  have f0 : FInv env dir [] { fs with dirs := d } :=
    ⟨hs, by simp, fun p hp hne => absurd (hv p hp) hne, fun p q i hp hf _ => by
      have : fs.files p = some i := hf
      rw [hv p hp] at this; cases this⟩
  have f1 := extractEntries_inv ho (env.untar b).1 [] ⟨{ fs with dirs := d }, created, mode, ⟨false, [], []⟩, none⟩ s
    (by simpa using hap) hc (by intro x hx; cases hx) f0 h1
  rw [List.nil_append] at f1
  have hall := extractEntries_ok (dir := dir) ho (env.untar b).1 (env.untar b).1
      ⟨{ fs with dirs := d }, created, mode, ⟨false, [], []⟩, none⟩ s hs (fun _ h => h) (by intro x hx; cases hx) h1
  intro e he hr hk
  obtain ⟨i, hi, hm⟩ := f1.bits e he hr hk
  have hin := place_inside (dir := dir) hc he hr
  have hmode := setBinModes_modes (dir := dir) _ _ _ f1.inj hb2 _ i hin hi
  have hb : Mani.binsOf s.mani = commands env (env.untar b).1 := by rw [hall.mani]; exact binsOf_commands ..
  obtain ⟨mo, hmo⟩ := (setBinModes_eq _ _).1 _ hb2
  refine ⟨i, by rw [hfs]; simp only [recordIndex, ↓reduceIte]; rw [hmo]; exact hi, ?_⟩
  rw [hfs]
  simp only [recordIndex, ↓reduceIte]
  rw [hmode, hm, hb]
  unfold wanted
  by_cases hx : IsCommand env dir (env.untar b).1 (place dir e)
  · rw [if_pos hx]; exact if_pos hx
  · rw [if_neg hx]; exact if_neg hx

/-! ### Without a cache -/

theorem extractEntries_plain {env : Env} {dir} (l done : List Entry) (s s' : XSt) (hs : Sane s.fs)
    (hb : ∀ e ∈ done, e.regular = true → Bits s.fs (place dir e) (env.newMode e.bits)) (hm : s.mani = none)
    (h : extractEntries env dir false l s = .ok s') :
    (∀ e ∈ done ++ l, e.regular = true → Bits s'.fs (place dir e) (env.newMode e.bits)) ∧ s'.mani = none := by
  induction l generalizing done s with
  | nil => simp only [extractEntries, Except.ok.injEq] at h; subst h; simpa using ⟨hb, hm⟩
  | cons e r ih =>
    simp only [extractEntries] at h
    split at h
    · cases h
    · rename_i s1 h1
      have hsplit : done ++ e :: r = (done ++ [e]) ++ r := by simp
      rw [hsplit]
      have key : Sane s1.fs ∧ (∀ e' ∈ done ++ [e], e'.regular = true → Bits s1.fs (place dir e') (env.newMode e'.bits)) ∧
          s1.mani = none := by
        unfold extractEntry at h1
        split at h1
        · rename_i hr
          split at h1
          · cases h1
          · rename_i created fs1 hmk
            obtain ⟨d, rfl⟩ := mkdirp_eq hmk
            simp only [Bool.false_eq_true, ↓reduceIte, putPlain] at h1
            split at h1
            · cases h1
            · rename_i ht
              cases h1
              have hn : s.fs.files (place dir e) = none := not_taken (fs := { s.fs with dirs := d }) (Bool.eq_false_iff.2 ht)
              refine ⟨sane_create (c := []) (fs := { s.fs with dirs := d }) hs, fun e' he' hr' => ?_, hm⟩
              rcases List.mem_append.1 he' with he' | he'
              · obtain ⟨i, hi, hmi⟩ := hb e' he' hr'
                have hne : place dir e' ≠ RPath.goTo dir (subpath e) := by
                  intro hx
                  rw [hx] at hi
                  have : s.fs.files (RPath.goTo dir (subpath e)) = none := hn
                  rw [this] at hi; cases hi
                have := hs.1 _ _ hi
                refine ⟨i, ?_, ?_⟩
                · simp only [FS.create, FS.setMode, upd_ne _ _ hne, hi]
                · simp only [FS.create, FS.setMode]
                  rw [upd_ne _ _ (by omega), hmi]
              · simp only [List.mem_singleton] at he'
                subst he'
                refine ⟨s.fs.next, ?_, ?_⟩
                · simp only [FS.create, FS.setMode]
                  exact upd_self ..
                · simp only [FS.create, FS.setMode]
                  exact upd_self ..
        · rename_i hr
          cases h1
          refine ⟨hs, fun e' he' hr' => ?_, hm⟩
          rcases List.mem_append.1 he' with he' | he'
          · exact hb e' he' hr'
          · simp only [List.mem_singleton] at he'
            exact absurd (he' ▸ hr') hr
      exact ih (done ++ [e]) s1 key.1 key.2.1 key.2.2 h

theorem extractTemp_plain {env : Env} {dir ex mode b fs k fs'} (hs : Sane fs)
    (h : extractTemp env dir false ex mode b fs = (some k, fs')) :
    ∀ e ∈ (env.untar b).1, e.regular = true → Bits fs' (place dir e) (env.newMode (e.mode ||| 0o600)) := by
  obtain ⟨d, created, s, h1, hu, _, fs2, hb2, hfs⟩ := extractTemp_some h
  obtain ⟨hb, hm⟩ := extractEntries_plain (env.untar b).1 [] _ s hs (by simp) rfl h1
  rw [hm] at hb2
  simp only [Mani.binsOf, setBinModes, Except.ok.injEq] at hb2
  subst hb2
  rw [hfs]
  simpa [recordIndex, Entry.bits] using hb

/-! ### From the cache -/

theorem linkAll_bits {env dir m} (hm : m.isCopy = true) (l : List (List Comp × (Str × Nat))) (created : List Loc) (fs fs' : FS)
    (hs : Sane fs) (hv : ∀ kh ∈ l, fs.files (RPath.goTo dir kh.1) = none)
    (hd : l.Pairwise fun a b => RPath.goTo dir a.1 ≠ RPath.goTo dir b.1)
    (h : linkAll env dir m l created fs = .ok fs') :
    (∀ p x, Bits fs p x → Bits fs' p x) ∧
    (∀ kh ∈ l, Ordinary env ∨ kh.2.2 ≠ 0o644 → Bits fs' (RPath.goTo dir kh.1) kh.2.2) := by
  induction l generalizing created fs with
  | nil => simp only [linkAll, Except.ok.injEq] at h; subst h; exact ⟨fun _ _ h => h, by simp⟩
  | cons kh r ih =>
    obtain ⟨k, x⟩ := kh
    simp only [linkAll] at h
    cases h1 : mkdirp created fs (RPath.goTo dir k).dropLast with
    | none => rw [h1] at h; cases h
    | some cf =>
      obtain ⟨created1, fs1⟩ := cf
      obtain ⟨d, rfl⟩ := mkdirp_eq h1
      rw [h1] at h
      simp only at h
      cases h2 : extractFile env m { fs with dirs := d } x (RPath.goTo dir k) with
      | none => rw [h2] at h; cases h
      | some fs2 =>
        rw [h2] at h
        have hvk : fs.files (RPath.goTo dir k) = none := hv (k, x) (List.mem_cons_self ..)
        obtain ⟨i, n⟩ := extractFile_new (fs := { fs with dirs := d }) hvk h2
        have hi : i = fs.next := by
          rcases n.which with h | ⟨h, _⟩
          · exact h
          · rw [hm] at h; cases h
        have hs2 : Sane fs2 := by
          obtain ⟨j, hst, _, hp⟩ := extractFile_put h2
          exact sane_put (fs := { fs with dirs := d }) hs (hs.2 _ _ hst) hp
        have hfl : fs2.files = upd fs.files (RPath.goTo dir k) (some i) := n.files
        rw [List.pairwise_cons] at hd
        obtain ⟨k1, k2⟩ := ih created1 fs2 hs2 (fun kh hkh => by
          rw [hfl, upd_ne _ _ (Ne.symm (hd.1 kh hkh))]
          exact hv kh (List.mem_cons_of_mem _ hkh)) hd.2 h
        refine ⟨fun p y hp => k1 p y ?_, fun kh hkh hk => ?_⟩
        · obtain ⟨j, hj, hmj⟩ := hp
          have hne : p ≠ RPath.goTo dir k := fun e => by rw [e, hvk] at hj; cases hj
          have := hs.1 p j hj
          refine ⟨j, by rw [hfl, upd_ne _ _ hne, hj], ?_⟩
          rw [n.other j (by omega)]
          exact hmj
        · rcases List.mem_cons.1 hkh with rfl | hkh
          · refine k1 _ _ ⟨i, by rw [hfl, upd_self], ?_⟩
            by_cases hb : x.2 = 0o644
            · rcases hk with ho | hk
              · rcases n.plain hb with ⟨_, y, h | h⟩ | ⟨h1, _⟩
                · rw [h, ho.clone]; exact hb.symm
                · rw [h, ho.copy]; exact hb.symm
                · have : i < fs.next := hs.2 _ _ h1
                  omega
              · exact absurd hb hk
            · exact n.bits hb
          · exact k2 kh hkh hk

theorem pathText_split (ns : List Str) (n : Str) (h : ∀ x ∈ n :: ns, '/' ∉ x) :
    PSpec.splitChar '/' (pathText ((n :: ns).map Comp.normal)) = n :: ns := by
  induction ns generalizing n with
  | nil => exact splitChar_one (h n (List.mem_cons_self ..))
  | cons a r ih =>
    have := ih a (fun x hx => h x (List.mem_cons_of_mem _ hx))
    simp only [List.map_cons, pathText, Comp.text] at this ⊢
    rw [Hoisted.splitChar_append, splitChar_one (h n (List.mem_cons_self ..)), this]
    rfl

theorem pathText_inj {k k' : List Comp} {p p' : Str} (hk : k = (RPath.components p).tail) (hk' : k' = RPath.components p')
    (h1 : ∀ c ∈ k, ∃ s, c = Comp.normal s) (h2 : ∀ c ∈ k', ∃ s, c = Comp.normal s) (h : pathText k = pathText k') : k = k' := by
  have names : ∀ (l : List Comp) (p : Str), (∀ c ∈ l, c ∈ RPath.components p) → (∀ c ∈ l, ∃ s, c = Comp.normal s) →
      ∃ ns : List Str, l = ns.map Comp.normal ∧ ∀ x ∈ ns, '/' ∉ x ∧ x ≠ [] := by
    intro l p hl hn
    obtain ⟨ns, e, _⟩ := goTo_append [] l hn
    refine ⟨ns, e, fun x hx => ?_⟩
    have := (Bins.components_normal p x (hl _ (by rw [e]; exact List.mem_map.2 ⟨x, hx, rfl⟩))).1
    exact ⟨this.2.2.2, this.1⟩
  obtain ⟨ns, rfl, a1⟩ := names k p (fun c hc => by rw [hk] at hc; exact List.mem_of_mem_tail hc) h1
  obtain ⟨ns', rfl, a2⟩ := names k' p' (fun c hc => by rw [hk'] at hc; exact hc) h2
  cases ns with
  | nil =>
    cases ns' with
    | nil => rfl
    | cons b r =>
      have := pathText_split r b (fun x hx => (a2 x hx).1)
      rw [← h] at this
      simp only [List.map_nil, pathText, PSpec.splitChar, List.cons.injEq] at this
      exact absurd this.1.symm (a2 b (List.mem_cons_self ..)).2
  | cons a l =>
    have e1 := pathText_split l a (fun x hx => (a1 x hx).1)
    cases ns' with
    | nil =>
      rw [h] at e1
      simp only [List.map_nil, pathText, PSpec.splitChar, List.cons.injEq] at e1
      exact absurd e1.1.symm (a1 a (List.mem_cons_self ..)).2
    | cons b r =>
      have e2 := pathText_split r b (fun x hx => (a2 x hx).1)
      rw [h, e2] at e1
      rw [e1]

theorem listing_bits (env : Env) (l : List Entry) (m : IMap (List Comp) (Str × Nat)) :
    ∀ kh ∈ listing env l m, (∃ e ∈ l, e.regular = true ∧ subpath e = kh.1 ∧ e.mode ||| 0o600 = kh.2.2) ∨ kh ∈ m := by
  induction l generalizing m with
  | nil => exact fun _ h => .inr h
  | cons e r ih =>
    intro kh hkh
    simp only [listing, List.foldl_cons] at hkh
    rcases ih _ kh hkh with ⟨e', he', h⟩ | h
    · exact .inl ⟨e', List.mem_cons_of_mem _ he', h⟩
    · split at h
      · rename_i hr
        rcases IMap.mem_insert h with rfl | h
        · exact .inl ⟨e, List.mem_cons_self .., hr, rfl, rfl⟩
        · exact .inr h
      · exact .inr h

theorem extractCached_bits {env : Env} {dir m fs idx es fs'} (ho : ∀ f, (env.ord f).Perm f) (hpl : Plain es)
    (hap : Apart dir es) (hsp : ∀ b ∈ commands env es, Spelled b) (hs : Sane fs) (hv : Vacant fs dir)
    (hidx : idx.files = listing env es []) (hb : idx.binPaths = commands env es) (hm : (cacheMode idx m).isCopy = true)
    (h : extractCached env dir m (.good idx) fs = .ok fs') :
    ∀ e ∈ es, e.regular = true → (Ordinary env ∨ wanted env dir es e ≠ 0o644) → Bits fs' (place dir e) (wanted env dir es e) := by
  have hc := plain_contained hpl
  have hfrom : FromEntries env es idx.files := by
    rw [hidx]; exact listing_from env es es [] (fun _ h => h) (by intro x hx; cases hx)
  have hperm := ho idx.files
  have hfrom' := perm_from hfrom hperm
  have hwf : IMap.WF (env.ord idx.files) := by
    have : IMap.WF idx.files := by rw [hidx]; exact listing_wf env es [] IMap.wf_nil
    exact (hperm.map Prod.fst).nodup_iff.2 this
  have hkey : ∀ kh ∈ env.ord idx.files, ∀ c ∈ kh.1, ∃ s, c = Comp.normal s := by
    intro kh hkh
    obtain ⟨e, he, hr, hk, _⟩ := hfrom' kh hkh
    rw [← hk]; exact hpl e he hr
  have hd : (env.ord idx.files).Pairwise fun a b => RPath.goTo dir a.1 ≠ RPath.goTo dir b.1 := by
    have := List.pairwise_map.1 hwf
    refine this.imp_of_mem ?_
    intro a b ha hb hab h
    exact hab (goTo_inj (hkey a ha) (hkey b hb) h)
  have hvac : ∀ kh ∈ env.ord idx.files, fs.files (RPath.goTo dir kh.1) = none := by
    intro kh hkh
    obtain ⟨e, he, hr, hk, _⟩ := hfrom' kh hkh
    apply hv
    rw [← hk]; exact place_inside hc he hr
  simp only [extractCached] at h
  have hlink := (linkAll_bits hm ((env.ord idx.files).map fun kh => (kh.1, cachedBits idx.binPaths kh)) [] fs fs' hs
    (fun x hx => by obtain ⟨kh, hkh, rfl⟩ := List.mem_map.1 hx; exact hvac kh hkh)
    (List.pairwise_map.2 hd) h).2
  intro e he hr hk
  have hcov := listing_covers env es [] e he hr
  rw [← hidx] at hcov
  obtain ⟨kh, hkh, hke⟩ := List.mem_map.1 hcov
  have hbits : e.mode ||| 0o600 = kh.2.2 := by
    rcases listing_bits env es [] kh (hidx ▸ hkh) with ⟨e', he', hr', hk', hb'⟩ | h
    · have : e' = e := apart_eq hap he' he hr' hr (by unfold place; rw [show (RPath.components e'.header).tail = subpath e' from rfl,
        show (RPath.components e.header).tail = subpath e from rfl, hk', hke])
      rw [← this]; exact hb'
    · cases h
  have hval : (cachedBits idx.binPaths kh).2 = wanted env dir es e := by
    simp only [cachedBits, wanted, hb, ← hbits]
    have hiff : (commands env es).contains (pathText kh.1) = true ↔ IsCommand env dir es (place dir e) := by
      simp only [List.contains_iff_mem, IsCommand]
      have hpe : ∀ c ∈ subpath e, ∃ s, c = Comp.normal s := hpl e he hr
      constructor
      · intro hmem
        refine ⟨_, hmem, ?_⟩
        have sp := hsp _ hmem
        have : subpath e = RPath.components (pathText kh.1) :=
          pathText_inj (p := e.header) rfl rfl hpe sp.1 (by rw [sp.2, hke])
        rw [← this]; rfl
      · rintro ⟨b, hbm, hp⟩
        have sp := hsp b hbm
        have : RPath.components b = subpath e := goTo_inj sp.1 hpe hp
        rw [hke, ← this, sp.2]
        exact hbm
    by_cases hx : IsCommand env dir es (place dir e)
    · rw [if_pos (hiff.2 hx), if_pos hx]
    · rw [if_neg (fun h => hx (hiff.1 h)), if_neg hx]
  have := hlink _ (List.mem_map.2 ⟨kh, hperm.mem_iff.2 hkh, rfl⟩) (by simp only [hval]; exact hk)
  simp only [hval, hke] at this
  exact this

end Tar
end Oro
