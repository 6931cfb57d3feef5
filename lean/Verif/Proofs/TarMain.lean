import Verif.Proofs.TarMore
import Verif.Proofs.TarStream
/-
Extraction from the cache, and the main theorems about extraction.
-/

set_option linter.unusedSectionVars false

namespace Oro
namespace Tar

/-! ### Plain paths -/

theorem goTo_append (l : Loc) (k : List Comp) (hk : ∀ c ∈ k, ∃ s, c = Comp.normal s) :
    ∃ names : List Str, k = names.map Comp.normal ∧ RPath.goTo l k = l ++ names := by
  induction k generalizing l with
  | nil => exact ⟨[], rfl, by simp [RPath.goTo]⟩
  | cons c cs ih =>
    obtain ⟨s, rfl⟩ := hk c (List.mem_cons_self ..)
    obtain ⟨ns, h1, h2⟩ := ih (l ++ [s]) (fun c hc => hk c (List.mem_cons_of_mem _ hc))
    exact ⟨s :: ns, by simp [h1], by simp [RPath.goTo, h2]⟩

theorem goTo_inj {l : Loc} {k k' : List Comp} (hk : ∀ c ∈ k, ∃ s, c = Comp.normal s)
    (hk' : ∀ c ∈ k', ∃ s, c = Comp.normal s) (h : RPath.goTo l k = RPath.goTo l k') : k = k' := by
  obtain ⟨n, h1, h2⟩ := goTo_append l k hk
  obtain ⟨n', h1', h2'⟩ := goTo_append l k' hk'
  rw [h2, h2'] at h
  rw [h1, h1', List.append_cancel_left h]

theorem staysBelow_plain (n : Nat) (k : List Comp) (hk : ∀ c ∈ k, ∃ s, c = Comp.normal s) : StaysBelow n k := by
  induction k generalizing n with
  | nil => trivial
  | cons c cs ih =>
    obtain ⟨s, rfl⟩ := hk c (List.mem_cons_self ..)
    exact ih _ (fun c hc => hk c (List.mem_cons_of_mem _ hc))

theorem plain_contained {es} (h : Plain es) : Contained es := fun e he hr => staysBelow_plain 0 _ (h e he hr)

/-! ### The listing of an archive -/

theorem listing_wf (env : Env) (es : List Entry) (m : IMap (List Comp) (Str × Nat)) (h : m.WF) : (listing env es m).WF := by
  induction es generalizing m with
  | nil => exact h
  | cons e r ih =>
    simp only [listing, List.foldl_cons]
    apply ih
    split
    · exact IMap.wf_insert h _ _
    · exact h

theorem listing_from (env : Env) (es l : List Entry) (m : IMap (List Comp) (Str × Nat)) (hl : ∀ e ∈ l, e ∈ es)
    (h : FromEntries env es m) : FromEntries env es (listing env l m) := by
  induction l generalizing m with
  | nil => exact h
  | cons e r ih =>
    simp only [listing, List.foldl_cons]
    apply ih _ (fun x hx => hl x (List.mem_cons_of_mem _ hx))
    split
    · rename_i hr
      intro x hx
      rcases IMap.mem_insert hx with rfl | hx
      · exact ⟨e, hl e (List.mem_cons_self ..), hr, rfl, rfl⟩
      · exact h x hx
    · exact h

theorem listing_mono (env : Env) (l : List Entry) (m : IMap (List Comp) (Str × Nat)) (k) (hk : k ∈ m.keys) :
    k ∈ (listing env l m).keys := by
  induction l generalizing m with
  | nil => exact hk
  | cons e r ih =>
    simp only [listing, List.foldl_cons]
    apply ih
    split
    · exact keys_insert_mono _ _ _ _ hk
    · exact hk

theorem listing_covers (env : Env) (l : List Entry) (m : IMap (List Comp) (Str × Nat)) :
    ∀ e ∈ l, e.regular = true → subpath e ∈ (listing env l m).keys := by
  induction l generalizing m with
  | nil => simp
  | cons e r ih =>
    intro e' he' hr'
    simp only [listing, List.foldl_cons]
    rcases List.mem_cons.1 he' with rfl | he'
    · apply listing_mono
      rw [if_pos hr']
      exact keys_insert_self ..
    · exact ih _ e' he' hr'

/-! ### Files from the cache -/

/-- what linking cached files changes -/
structure Linked (env : Env) (dir : Loc) (es : List Entry) (m : Mode) (fs fs' : FS) : Prop where
  sane : Sane fs'
  index : fs'.index = fs.index
  store : fs'.store = fs.store
  allFrom : AllFrom env dir es fs → AllFrom env dir es fs'
  next : fs.next ≤ fs'.next
  old : ∀ i, i < fs.next → fs'.content i = fs.content i
  keep : ∀ q, (fs.files q).isSome → fs'.files q = fs.files q
  outside : ∀ p, ¬ Inside dir p → fs'.files p = fs.files p
  priv : m.isCopy = true → ∀ q, SharedWithCache fs' q → SharedWithCache fs q

theorem Linked.refl {env dir es m fs} (hs : Sane fs) : Linked env dir es m fs fs :=
  ⟨hs, rfl, rfl, id, Nat.le_refl _, fun _ _ => rfl, fun _ _ => rfl, fun _ _ => rfl, fun _ _ h => h⟩

theorem Linked.trans {env dir es m a b c} (h1 : Linked env dir es m a b) (h2 : Linked env dir es m b c) :
    Linked env dir es m a c where
  sane := h2.sane
  index := h2.index.trans h1.index
  store := h2.store.trans h1.store
  allFrom h := h2.allFrom (h1.allFrom h)
  next := Nat.le_trans h1.next h2.next
  old i hi := (h2.old i (Nat.lt_of_lt_of_le hi h1.next)).trans (h1.old i hi)
  keep q hq := by
    have h := h1.keep q hq
    rw [← h]; exact h2.keep q (by rw [h]; exact hq)
  outside p hp := (h2.outside p hp).trans (h1.outside p hp)
  priv hm q hq := h1.priv hm q (h2.priv hm q hq)

theorem linked_put {env dir es m fs h fs'} {e : Entry} (hs : Sane fs) (hc : Contained es) (he : e ∈ es) (hr : e.regular = true)
    (hx : env.xxh e.content = h.1) (hv : fs.files (place dir e) = none)
    (hf : extractFile env m fs h (place dir e) = some fs') : Linked env dir es m fs fs' := by
  obtain ⟨i, hst, hxx, hp⟩ := extractFile_put hf
  have hin := place_inside (dir := dir) hc he hr
  have hi : i < fs.next := hs.2 _ _ hst
  have sane := sane_put hs hi hp
  have shp := fun q hq => shared_put (q := q) hs hp hq
  rcases hp with ⟨hm, _, mo, rfl⟩ | ⟨_, mo, rfl⟩ | ⟨j, hj, mo, rfl⟩
  · exact {
      sane := sane
      index := rfl
      store := rfl
      allFrom := fun ha p k hp hf => by
        simp only [upd] at hf
        split at hf
        · rename_i hpe
          cases hf
          exact ⟨e, he, hr, hpe.symm, by rw [hx]; exact hxx⟩
        · exact ha p k hp hf
      next := Nat.le_refl _
      old := fun _ _ => rfl
      keep := fun q hq => by
        by_cases e1 : q = place dir e
        · rw [e1, hv] at hq; cases hq
        · simp only [upd_ne _ _ e1]
      outside := fun q hq => by
        have : q ≠ place dir e := fun x => hq (x ▸ hin)
        simp only [upd_ne _ _ this]
      priv := fun h _ _ => by rw [hm] at h; cases h }
  · exact {
      sane := sane
      index := rfl
      store := rfl
      allFrom := fun ha => allFrom_create hs ha he hr (by rw [hxx, hx])
      next := by simp only [FS.create]; omega
      old := fun k hk => by
        have : k ≠ fs.next := by omega
        simp only [FS.create, upd_ne _ _ this]
      keep := fun q hq => by
        by_cases e1 : q = place dir e
        · rw [e1, hv] at hq; cases hq
        · simp only [FS.create, upd_ne _ _ e1]
      outside := fun q hq => by
        have : q ≠ place dir e := fun x => hq (x ▸ hin)
        simp only [FS.create, upd_ne _ _ this]
      priv := fun h q hq => by
        rcases shp q hq with h' | ⟨_, h'⟩
        · exact h'
        · rw [h] at h'; cases h' }
  · rw [hv] at hj; cases hj

theorem linked_dirs {env dir es m} {fs : FS} {d} (hs : Sane fs) : Linked env dir es m fs { fs with dirs := d } :=
  ⟨hs, rfl, rfl, fun h => h, Nat.le_refl _, fun _ _ => rfl, fun _ _ => rfl, fun _ _ => rfl, fun _ _ h => h⟩

theorem linkAll_linked {env dir es m} (hc : Contained es) (l : List (List Comp × (Str × Nat))) (created : List Loc) (fs : FS)
    (hl : FromEntries env es l) (hs : Sane fs) (hv : ∀ kh ∈ l, fs.files (RPath.goTo dir kh.1) = none)
    (hd : l.Pairwise fun a b => RPath.goTo dir a.1 ≠ RPath.goTo dir b.1) :
    (∀ fs', linkAll env dir m l created fs = .ok fs' → Linked env dir es m fs fs' ∧
      ∀ kh ∈ l, (fs'.files (RPath.goTo dir kh.1)).isSome) ∧
    (∀ fs', linkAll env dir m l created fs = .error fs' → Linked env dir es m fs fs') := by
  induction l generalizing created fs with
  | nil =>
    simp only [linkAll]
    exact ⟨fun _ h => by cases h; exact ⟨.refl hs, by simp⟩, fun _ h => (by cases h)⟩
  | cons kh r ih =>
    obtain ⟨k, h⟩ := kh
    obtain ⟨e, he, hr, hk, hh⟩ := hl (k, h) (List.mem_cons_self ..)
    simp only at hk hh
    have hpl : RPath.goTo dir k = place dir e := by rw [← hk]; rfl
    simp only [linkAll]
    cases h1 : mkdirp created fs (RPath.goTo dir k).dropLast with
    | none => exact ⟨fun _ h => (by cases h), fun _ h => by cases h; exact .refl hs⟩
    | some cf =>
      obtain ⟨created1, fs1⟩ := cf
      obtain ⟨d, rfl⟩ := mkdirp_eq h1
      have l1 : Linked env dir es m fs { fs with dirs := d } := linked_dirs hs
      simp only
      cases h2 : extractFile env m { fs with dirs := d } h (RPath.goTo dir k) with
      | none => exact ⟨fun _ h => (by cases h), fun _ h => by cases h; exact l1⟩
      | some fs2 =>
        have hvk : fs.files (RPath.goTo dir k) = none := hv (k, h) (List.mem_cons_self ..)
        have l2 : Linked env dir es m { fs with dirs := d } fs2 :=
          linked_put hs hc he hr hh (by rw [← hpl]; exact hvk) (by rw [← hpl]; exact h2)
        have l12 := l1.trans l2
        obtain ⟨_, _, _, hput⟩ := extractFile_put h2
        have hother : ∀ q, q ≠ RPath.goTo dir k → fs2.files q = fs.files q := by
          intro q hq
          rcases hput with ⟨_, _, mo, rfl⟩ | ⟨_, mo, rfl⟩ | ⟨j, hj, mo, rfl⟩
          · simp only [upd_ne _ _ hq]
          · simp only [FS.create, upd_ne _ _ hq]
          · rfl
        rw [List.pairwise_cons] at hd
        have := ih created1 fs2 (fun x hx => hl x (List.mem_cons_of_mem _ hx)) l12.sane
          (fun kh hkh => by
            rw [hother _ (Ne.symm (hd.1 kh hkh))]
            exact hv kh (List.mem_cons_of_mem _ hkh)) hd.2
        refine ⟨fun fs' h => ?_, fun fs' h => l12.trans (this.2 fs' h)⟩
        obtain ⟨l3, hpres⟩ := this.1 fs' h
        refine ⟨l12.trans l3, fun kh hkh => ?_⟩
        rcases List.mem_cons.1 hkh with rfl | hkh
        · have hp := put_present hput
          rw [l3.keep _ hp]; exact hp
        · exact hpres kh hkh

/-- Extraction from an honest index entry. -/
theorem extractCached_linked {env : Env} {dir m fs idx es} (ho : ∀ f, (env.ord f).Perm f) (hpl : Plain es) (hs : Sane fs)
    (hv : Vacant fs dir) (hidx : idx.files = listing env es []) :
    (∀ fs', extractCached env dir m (.good idx) fs = .ok fs' → Linked env dir es (cacheMode idx m) fs fs' ∧
      ∀ e ∈ es, e.regular = true → (fs'.files (place dir e)).isSome) ∧
    (∀ fs', extractCached env dir m (.good idx) fs = .error fs' → Linked env dir es (cacheMode idx m) fs fs') := by
  have hc := plain_contained hpl
  have hfrom : FromEntries env es idx.files := by
    rw [hidx]; exact listing_from env es es [] (fun _ h => h) (by intro x hx; cases hx)
  have hperm := ho idx.files
  have hfrom' := perm_from hfrom hperm
  have hwf : IMap.WF (env.ord idx.files) := by
    have : IMap.WF idx.files := by rw [hidx]; exact listing_wf env es [] IMap.wf_nil
    exact (hperm.map Prod.fst).nodup_iff.2 this
  have hkey : ∀ kh ∈ env.ord idx.files, ∀ c ∈ kh.1, ∃ s, c = Comp.normal s := by
    intro kh hkh
    obtain ⟨e, he, hr, hk, _⟩ := hfrom' kh hkh
    rw [← hk]; exact hpl e he hr
  have hd : (env.ord idx.files).Pairwise fun a b => RPath.goTo dir a.1 ≠ RPath.goTo dir b.1 := by
    have := List.pairwise_map.1 hwf
    refine this.imp_of_mem ?_
    intro a b ha hb hab h
    exact hab (goTo_inj (hkey a ha) (hkey b hb) h)
  have hvac : ∀ kh ∈ env.ord idx.files, fs.files (RPath.goTo dir kh.1) = none := by
    intro kh hkh
    obtain ⟨e, he, hr, hk, _⟩ := hfrom' kh hkh
    apply hv
    rw [← hk]; exact place_inside hc he hr
  have := linkAll_linked (m := cacheMode idx m) hc ((env.ord idx.files).map fun kh => (kh.1, cachedBits idx.binPaths kh))
    [] fs
    (fun x hx => by obtain ⟨kh, hkh, rfl⟩ := List.mem_map.1 hx; exact hfrom' kh hkh) hs
    (fun x hx => by obtain ⟨kh, hkh, rfl⟩ := List.mem_map.1 hx; exact hvac kh hkh)
    (List.pairwise_map.2 hd)
  simp only [extractCached]
  refine ⟨fun fs' h => ⟨(this.1 fs' h).1, fun e he hr => ?_⟩, this.2⟩
  have hcov := listing_covers env es [] e he hr
  rw [← hidx] at hcov
  obtain ⟨kh, hkh, hke⟩ := List.mem_map.1 hcov
  have := (this.1 fs' h).2 _ (List.mem_map.2 ⟨kh, hperm.mem_iff.2 hkh, rfl⟩)
  simp only [hke] at this
  exact this

/-! ### Without assumptions on the paths -/

theorem put_index {fs fs' : FS} {p i H} (h : Put fs fs' p i H) : fs'.index = fs.index := by
  rcases h with ⟨_, _, mo, rfl⟩ | ⟨_, mo, rfl⟩ | ⟨j, hj, mo, rfl⟩ <;> rfl

theorem linkAll_basic {env dir m} (l : List (List Comp × (Str × Nat))) (created : List Loc) (fs : FS) (hs : Sane fs) :
    (∀ fs', linkAll env dir m l created fs = .ok fs' → Sane fs' ∧ fs'.index = fs.index) ∧
    (∀ fs', linkAll env dir m l created fs = .error fs' → Sane fs' ∧ fs'.index = fs.index) := by
  induction l generalizing created fs with
  | nil =>
    simp only [linkAll]
    exact ⟨fun _ h => by cases h; exact ⟨hs, rfl⟩, fun _ h => (by cases h)⟩
  | cons kh r ih =>
    obtain ⟨k, h⟩ := kh
    simp only [linkAll]
    cases h1 : mkdirp created fs (RPath.goTo dir k).dropLast with
    | none => exact ⟨fun _ h => (by cases h), fun _ h => by cases h; exact ⟨hs, rfl⟩⟩
    | some cf =>
      obtain ⟨created1, fs1⟩ := cf
      obtain ⟨d, rfl⟩ := mkdirp_eq h1
      simp only
      cases h2 : extractFile env m { fs with dirs := d } h (RPath.goTo dir k) with
      | none => exact ⟨fun _ h => (by cases h), fun _ h => by cases h; exact ⟨hs, rfl⟩⟩
      | some fs2 =>
        obtain ⟨i, hst, _, hput⟩ := extractFile_put h2
        have s2 : Sane fs2 := sane_put (fs := { fs with dirs := d }) hs (hs.2 _ _ hst) hput
        have i2 := put_index hput
        have := ih created1 fs2 s2
        exact ⟨fun fs' h => ⟨(this.1 fs' h).1, (this.1 fs' h).2.trans i2⟩,
          fun fs' h => ⟨(this.2 fs' h).1, (this.2 fs' h).2.trans i2⟩⟩

theorem extractCached_basic {env dir m e fs} (hs : Sane fs) :
    (∀ fs', extractCached env dir m e fs = .ok fs' → Sane fs' ∧ fs'.index = fs.index) ∧
    (∀ fs', extractCached env dir m e fs = .error fs' → Sane fs' ∧ fs'.index = fs.index) := by
  cases e with
  | broken => exact ⟨fun _ h => (by cases h), fun _ h => by cases h; exact ⟨hs, rfl⟩⟩
  | good idx => exact linkAll_basic _ _ _ hs

/-! ### Network data -/

/-- The bytes that are extracted have the expected integrity. -/
theorem extractData_checked {env : Env} {dir cache mode ex evs fs} :
    extractData env dir cache mode ex evs fs = (none, fs) ∨
    ∃ b, (∀ i, ex = some i → Matches env.digest i b) ∧
      extractData env dir cache mode ex evs fs = extractTemp env dir cache ex mode b fs := by
  unfold extractData
  cases hr : Tarball.intoTemp env.digest env.limit (.memory []) ⟨ex.map fun i => (i, []), evs⟩ with
  | error e => exact .inl rfl
  | ok temp =>
    right
    refine ⟨temp.bytes, fun i hi => ?_, rfl⟩
    subst hi
    simp only [Option.map_some] at hr
    have := intoTemp_eq env.digest env.limit ⟨some (i, []), evs⟩ (.memory [])
    have hra := readAll_checked env.digest i evs []
    cases hx : Tarball.readAll env.digest ⟨some (i, []), evs⟩ with
    | error e => rw [this.1 e hx] at hr; cases hr
    | ok bs =>
      obtain ⟨s', h1, h2⟩ := this.2 bs hx
      rw [h1] at hr
      cases hr
      rw [h2]
      rw [hx] at hra
      split at hra
      · cases hra
      · split at hra
        · rename_i hc; cases hra; exact check_iff.1 hc
        · cases hra

theorem sri_check (env : Env) (b : Bytes) : Matches env.digest (env.sri b) b := by
  simp [Env.sri, Matches]

theorem binsOf_commands (env : Env) (es : List Entry) : Mani.binsOf (manifestOf env es none) = commands env es := by
  unfold commands
  cases manifestOf env es none <;> rfl

theorem extractTemp_honest {env : Env} {dir cache ex mode b fs} (ho : ∀ f, (env.ord f).Perm f) (hs : Sane fs)
    (hh : Honest env fs) (hb : ∀ i, ex = some i → Matches env.digest i b) :
    Sane (extractTemp env dir cache ex mode b fs).2 ∧ Honest env (extractTemp env dir cache ex mode b fs).2 := by
  obtain ⟨fs1, idx, st, rec⟩ := extractTemp_steps (dir := dir) (cache := cache) (ex := ex) (mode := mode) (b := b) (fs := fs) ho
  have s1 : Sane fs1 := st.inv Sane (fun x y hx st => step_sane hx st) hs
  have i1 : fs1.index = fs.index :=
    st.inv (fun x => x.index = fs.index) (fun x y hx st => (step_index st).trans hx) rfl
  rcases rec with ⟨_, h⟩ | ⟨k, _, _, h⟩ | ⟨k, hk, hcache, h⟩
  · rw [h]; exact ⟨s1, fun k idx hki => hh k idx (i1 ▸ hki)⟩
  · rw [h]; exact ⟨s1, fun k idx hki => hh k idx (i1 ▸ hki)⟩
  · subst hcache
    obtain ⟨d, created, s, h1, hu, hkk, fs2, hb2, hfs⟩ :=
      extractTemp_some (fs' := (extractTemp env dir true ex mode b fs).2) (Prod.ext hk rfl)
    have hall := extractEntries_ok (dir := dir) ho (env.untar b).1 (env.untar b).1
      ⟨{ fs with dirs := d }, created, mode, ⟨false, [], []⟩, none⟩ s hs (fun _ h => h) (by intro x hx; cases hx) h1
    refine ⟨by rw [h]; exact s1, fun k' idx' hki => ?_⟩
    rw [hfs] at hki
    obtain ⟨mo, rfl⟩ := (setBinModes_eq _ _).1 _ hb2
    simp only [recordIndex, ↓reduceIte, upd] at hki
    split at hki
    · rename_i hk'
      cases hki
      refine ⟨b, ?_, hu, hall.files, ?_, fun hsc => ?_⟩
      · rw [hk', hkk]
        cases ex with
        | none => exact sri_check env b
        | some i => exact hb i rfl
      · have h2 := hall.binPaths
        have h3 := hall.mani
        simp only at h2 h3
        simp only [h2, h3, List.nil_append, binsOf_commands]
      · obtain ⟨e, he, hr, hsp, hm⟩ := hsc
        exact (hall.scripts ⟨e, he, hr, hsp, hm⟩).1
    · have st2 := (extractEntries_steps (dir := dir) (cache := true) ho (env.untar b).1
        ⟨{ fs with dirs := d }, created, mode, ⟨false, [], []⟩, none⟩ (fun _ h => h) (by intro x hx; cases hx)).1
      rw [h1] at st2
      have i2 : s.fs.index = fs.index :=
        st2.inv (fun x => x.index = fs.index) (fun x y hx st => (step_index st).trans hx) rfl
      exact hh k' idx' (i2 ▸ hki)

theorem extractData_honest {env : Env} {dir cache ex mode evs fs} (ho : ∀ f, (env.ord f).Perm f) (hs : Sane fs)
    (hh : Honest env fs) :
    Sane (extractData env dir cache mode ex evs fs).2 ∧ Honest env (extractData env dir cache mode ex evs fs).2 := by
  rcases extractData_checked (env := env) (dir := dir) (cache := cache) (mode := mode) (ex := ex) (evs := evs) (fs := fs)
    with h | ⟨b, hb, h⟩
  · rw [h]; exact ⟨hs, hh⟩
  · rw [h]; exact extractTemp_honest ho hs hh hb

theorem clean_sane {k e fs fs'} (hs : Sane fs) (h : clean k e fs = some fs') : Sane fs' := by
  cases e with
  | broken => cases h
  | good idx =>
    simp only [clean, Option.some.injEq] at h
    subst h
    refine ⟨hs.1, fun x i hx => ?_⟩
    simp only at hx
    split at hx
    · cases hx
    · exact hs.2 x i hx

theorem clean_honest {env k e fs fs'} (hh : Honest env fs) (h : clean k e fs = some fs') : Honest env fs' := by
  cases e with
  | broken => cases h
  | good idx =>
    simp only [clean, Option.some.injEq] at h
    subst h
    intro k' idx' hki
    simp only [upd] at hki
    split at hki
    · cases hki
    · exact hh k' idx' hki

theorem viaNet_honest {env : Env} {dir cache ex mode net fs} (ho : ∀ f, (env.ord f).Perm f) (hs : Sane fs)
    (hh : Honest env fs) :
    Sane (viaNet env dir cache mode ex net fs).2 ∧ Honest env (viaNet env dir cache mode ex net fs).2 := by
  cases net with
  | none => exact ⟨hs, hh⟩
  | some evs => exact extractData_honest ho hs hh

theorem evict_sane {k fs fs'} (hs : Sane fs) (h : evict k fs = some fs') : Sane fs' := by
  unfold evict at h
  split at h
  · cases h; exact hs
  · exact clean_sane hs h

theorem evict_honest {env k fs fs'} (hh : Honest env fs) (h : evict k fs = some fs') : Honest env fs' := by
  unfold evict at h
  split at h
  · cases h; exact hh
  · exact clean_honest hh h

theorem evict_files {k fs fs'} (h : evict k fs = some fs') : fs'.files = fs.files ∧ fs'.content = fs.content := by
  unfold evict at h
  split at h
  · cases h; exact ⟨rfl, rfl⟩
  · rename_i e _
    cases e with
    | broken => cases h
    | good idx' => simp only [clean, Option.some.injEq] at h; subst h; exact ⟨rfl, rfl⟩

theorem fallback_honest {env : Env} {dir mode i net fs} (ho : ∀ f, (env.ord f).Perm f) (hs : Sane fs)
    (hh : Honest env fs) :
    Sane (fallback env dir mode i net fs).2 ∧ Honest env (fallback env dir mode i net fs).2 := by
  unfold fallback
  split
  · exact ⟨hs, hh⟩
  · rename_i h; exact viaNet_honest ho (evict_sane hs h) (evict_honest hh h)

theorem extractToDir_honest {env : Env} {dir cache ex mode net fs} (ho : ∀ f, (env.ord f).Perm f) (hs : Sane fs)
    (hh : Honest env fs) :
    Sane (extractToDir env dir cache mode ex net fs).2 ∧ Honest env (extractToDir env dir cache mode ex net fs).2 := by
  unfold extractToDir
  split
  · exact viaNet_honest ho hs hh
  · split
    · split
      · exact viaNet_honest ho hs hh
      · split <;> rename_i h
        · have := (extractCached_basic hs).1 _ h
          exact ⟨this.1, fun k idx hki => hh k idx (this.2 ▸ hki)⟩
        · have := (extractCached_basic hs).2 _ h
          exact fallback_honest ho this.1 (fun k idx hki => hh k idx (this.2 ▸ hki))
    · exact viaNet_honest ho hs hh

theorem reach_honest {env : Env} {fs} (ho : ∀ f, (env.ord f).Perm f) (h : Reach env fs) : Sane fs ∧ Honest env fs := by
  induction h with
  | init fs hs hi => exact ⟨hs, fun k idx hk => by rw [hi k] at hk; cases hk⟩
  | extract fs dir cache mode ex net _ ih => exact extractToDir_honest ho ih.1 ih.2
  | other fs fs' _ hs hi ih => exact ⟨hs, fun k idx hk => ih.2 k idx (hi k idx hk)⟩

/-! ### The result of an extraction -/

theorem plain_ok {env : Env} {dir} (l : List Entry) (s s' : XSt) (h : extractEntries env dir false l s = .ok s') :
    (∀ q, (s.fs.files q).isSome → (s'.fs.files q).isSome) ∧
    (∀ e ∈ l, e.regular = true → (s'.fs.files (place dir e)).isSome) := by
  induction l generalizing s with
  | nil => simp only [extractEntries, Except.ok.injEq] at h; subst h; exact ⟨fun _ h => h, by simp⟩
  | cons e r ih =>
    simp only [extractEntries] at h
    split at h
    · cases h
    · rename_i s1 h1
      obtain ⟨k, p⟩ := ih s1 h
      have : (∀ q, (s.fs.files q).isSome → (s1.fs.files q).isSome) ∧
          (e.regular = true → (s1.fs.files (place dir e)).isSome) := by
        unfold extractEntry at h1
        split at h1
        · split at h1
          · cases h1
          · rename_i hm
            obtain ⟨d, rfl⟩ := mkdirp_eq hm
            simp only [Bool.false_eq_true, ↓reduceIte, putPlain] at h1
            split at h1
            · cases h1
            · cases h1
              refine ⟨fun q hq => ?_, fun _ => ?_⟩
              · by_cases e1 : q = RPath.goTo dir (subpath e) <;> simp [FS.create, FS.setMode, upd, e1, hq]
              · simp [FS.create, FS.setMode, upd, place, subpath]
        · rename_i hr
          cases h1
          exact ⟨fun _ h => h, fun h => absurd h hr⟩
      refine ⟨fun q hq => k q (this.1 q hq), fun e' he' hr' => ?_⟩
      rcases List.mem_cons.1 he' with rfl | he'
      · exact k _ (this.2 hr')
      · exact p e' he' hr'

theorem installed_of {env dir es fs} (hc : Contained es) (hd : Distinct dir es) (ha : AllFrom env dir es fs)
    (hp : ∀ e ∈ es, e.regular = true → (fs.files (place dir e)).isSome) : Installed env dir es fs := by
  refine ⟨fun e he hr => ?_, fun p hin hf => ?_⟩
  · obtain ⟨i, hi⟩ := Option.isSome_iff_exists.1 (hp e he hr)
    obtain ⟨e', he', hr', hpl, hx⟩ := ha _ i (place_inside hc he hr) hi
    exact ⟨_, ⟨i, hi, rfl⟩, by rw [hx, hd e' he' hr' e he hr hpl]⟩
  · obtain ⟨i, hi⟩ := Option.ne_none_iff_exists'.1 hf
    obtain ⟨e', he', hr', hpl, _⟩ := ha p i hin hi
    exact ⟨e', he', hr', hpl⟩

theorem extractTemp_installed {env : Env} {dir cache ex mode b fs k fs'} (ho : ∀ f, (env.ord f).Perm f) (hs : Sane fs)
    (hc : Contained (env.untar b).1) (hd : Distinct dir (env.untar b).1) (ha : AllFrom env dir (env.untar b).1 fs)
    (h : extractTemp env dir cache ex mode b fs = (some k, fs')) :
    (env.untar b).2 = true ∧ Installed env dir (env.untar b).1 fs' := by
  obtain ⟨d, created, s, h1, hu, _, fs2, hb2, hfs⟩ := extractTemp_some h
  obtain ⟨mo, rfl⟩ := (setBinModes_eq _ _).1 _ hb2
  refine ⟨hu, ?_⟩
  have st := (extractEntries_steps (dir := dir) (cache := cache) ho (env.untar b).1
    ⟨{ fs with dirs := d }, created, mode, ⟨false, [], []⟩, none⟩ (fun _ h => h) (by intro x hx; cases hx)).1
  rw [h1] at st
  have inv := st.inv (fun x => Sane x ∧ AllFrom env dir (env.untar b).1 x)
    (fun x y hx s => ⟨step_sane hx.1 s, step_allFrom hc hd hx.1 hx.2 s⟩) ⟨hs, ha⟩
  have ha' : AllFrom env dir (env.untar b).1 fs' := by
    rw [hfs]; unfold recordIndex; split <;> exact inv.2
  have hf : fs'.files = s.fs.files := by rw [hfs]; unfold recordIndex; split <;> rfl
  refine installed_of hc hd ha' (fun e he hr => ?_)
  rw [hf]
  cases cache with
  | false => exact (plain_ok _ _ _ h1).2 e he hr
  | true =>
    exact (extractEntries_ok (dir := dir) ho (env.untar b).1 (env.untar b).1 _ s hs (fun _ h => h)
      (by intro x hx; cases hx) h1).present e he hr

theorem vacant_allFrom {env dir es fs} (h : Vacant fs dir) : AllFrom env dir es fs :=
  fun p i hp hf => by rw [h p hp] at hf; cases hf

theorem extractToDir_installed {env : Env} {dir cache mode i net fs k fs'} (ho : ∀ f, (env.ord f).Perm f)
    (hs : Sane fs) (hh : Honest env fs) (hv : Vacant fs dir)
    (huniq : ∀ t t', Matches env.digest i t → Matches env.digest i t' → t = t')
    (hgood : ∀ t, Matches env.digest i t → (env.untar t).2 = true → Plain (env.untar t).1 ∧ Distinct dir (env.untar t).1)
    (h : extractToDir env dir cache mode (some i) net fs = (some k, fs')) :
    k = i ∧ ∃ t, Matches env.digest i t ∧ (env.untar t).2 = true ∧ Installed env dir (env.untar t).1 fs' := by
  have fromNet : ∀ (cache : Bool) evs (fs1 : FS), Sane fs1 →
      (∀ t, Matches env.digest i t → (env.untar t).2 = true → AllFrom env dir (env.untar t).1 fs1) →
      extractData env dir cache mode (some i) evs fs1 = (some k, fs') →
      k = i ∧ ∃ t, Matches env.digest i t ∧ (env.untar t).2 = true ∧ Installed env dir (env.untar t).1 fs' := by
    intro cache evs fs1 hs1 ha1 h
    rcases extractData_checked (env := env) (dir := dir) (cache := cache) (mode := mode) (ex := some i) (evs := evs)
      (fs := fs1) with h' | ⟨b, hb, h'⟩
    · rw [h'] at h; cases h
    · rw [h'] at h
      have hbi := hb i rfl
      obtain ⟨_, _, _, _, hu, hk, _, _, _⟩ := extractTemp_some h
      obtain ⟨hpl, hd⟩ := hgood b hbi hu
      refine ⟨by simpa using hk, b, hbi, ?_⟩
      exact extractTemp_installed ho hs1 (plain_contained hpl) hd (ha1 b hbi hu) h
  have net0 : ∀ (cache : Bool) (fs1 : FS), Sane fs1 →
      (∀ t, Matches env.digest i t → (env.untar t).2 = true → AllFrom env dir (env.untar t).1 fs1) →
      viaNet env dir cache mode (some i) net fs1 = (some k, fs') →
      k = i ∧ ∃ t, Matches env.digest i t ∧ (env.untar t).2 = true ∧ Installed env dir (env.untar t).1 fs' := by
    intro cache fs1 hs1 ha1 hx
    unfold viaNet at hx
    split at hx
    · cases hx
    · exact fromNet cache _ fs1 hs1 ha1 hx
  unfold extractToDir at h
  simp only at h
  split at h
  · split at h
    · exact net0 cache fs hs (fun _ _ _ => vacant_allFrom hv) h
    · rename_i e he
      cases e with
      | broken =>
        simp only [extractCached, fallback, evict, he, clean] at h
        cases h
      | good idx =>
        obtain ⟨t, ht, hu, hidx, _, _⟩ := hh i idx he
        obtain ⟨hpl, hd⟩ := hgood t ht hu
        have hlink := extractCached_linked (m := mode) ho hpl hs hv hidx
        split at h <;> rename_i fs1 hx
        · cases h
          obtain ⟨l, hp⟩ := hlink.1 _ hx
          exact ⟨rfl, t, ht, hu, installed_of (plain_contained hpl) hd (l.allFrom (vacant_allFrom hv)) hp⟩
        · have l := hlink.2 _ hx
          unfold fallback at h
          split at h
          · cases h
          · rename_i fs2 hc
            obtain ⟨f2, c2⟩ := evict_files hc
            refine net0 true fs2 (evict_sane l.sane hc) (fun t' ht' hu' => ?_) h
            rw [huniq t' t ht' ht]
            intro p j hin hf
            rw [f2] at hf
            rw [c2]
            exact l.allFrom (vacant_allFrom hv) p j hin hf
  · exact net0 cache fs hs (fun _ _ _ => vacant_allFrom hv) h

/-! ### Private files -/

theorem extractTemp_private {env : Env} {dir ex mode b fs k fs'} (ho : ∀ f, (env.ord f).Perm f) (hs : Sane fs)
    (hv : Vacant fs dir) (hsc : HasScripts env (env.untar b).1)
    (h : extractTemp env dir true ex mode b fs = (some k, fs')) :
    ∀ p, Inside dir p → SharedWithCache fs' p → p = dir ++ [kPackageJson] := by
  obtain ⟨d, created, s, h1, hu, _, fs2, hb2, hfs⟩ := extractTemp_some h
  obtain ⟨mo, rfl⟩ := (setBinModes_eq _ _).1 _ hb2
  have hall := extractEntries_ok (dir := dir) ho (env.untar b).1 (env.untar b).1
      ⟨{ fs with dirs := d }, created, mode, ⟨false, [], []⟩, none⟩ s hs (fun _ h => h) (by intro x hx; cases hx) h1
  intro p hin hsh
  have hpriv := hall.priv (fun p hin ⟨i, _, hf, _⟩ => by
    have := hv p hin
    simp only at hf
    rw [this] at hf; cases hf)
  have hsh' : SharedWithCache s.fs p := by
    rw [hfs] at hsh
    simp only [recordIndex, ↓reduceIte] at hsh
    exact hsh
  rcases hpriv p hin hsh' with h | ⟨hm, _⟩
  · exact h
  · obtain ⟨e, he, hr, hsp, hmm⟩ := hsc
    rw [(hall.scripts ⟨e, he, hr, hsp, hmm⟩).2] at hm
    cases hm

end Tar
end Oro
