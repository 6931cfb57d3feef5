import Verif.Spec.Documents
import Mathlib.Data.List.Forall2
/- C79: the descriptions of packages are read as they are written. -/

set_option linter.unusedSectionVars false

namespace Oro
namespace Docs
open Meta (CManifest CDist CVersion CPackument)

/-! ### values -/

theorem text_iff (v : Json) (s : Str) : text v = some s ↔ Text v s := by
  cases v <;> simp [text, Text]

theorem flag_iff (v : Json) (b : Bool) : flag v = some b ↔ v = .bool b := by
  cases v <;> simp [flag]

theorem orNull_iff {α : Type} {read : Json → Option α} {M : Json → α → Prop} (h : ∀ v x, read v = some x ↔ M v x) (v : Json)
    (x : Option α) : orNull read v = some x ↔ Maybe M v x := by
  have key : ∀ v : Json, (∃ a, read v = some a ∧ some a = x) ↔ ∃ a, M v a ∧ x = some a := by
    intro v
    constructor
    · rintro ⟨a, h1, h2⟩; exact ⟨a, (h _ _).mp h1, h2.symm⟩
    · rintro ⟨a, h1, h2⟩; exact ⟨a, (h _ _).mpr h1, h2.symm⟩
  cases v with
  | null => simp [orNull, Maybe, eq_comm]
  | _ => simp [orNull, Maybe, Option.map_eq_some_iff, key]

theorem all_text {l : List Json} {r : List Str} : all text l = some r ↔ l = r.map .str := by
  induction l generalizing r with
  | nil => cases r <;> simp [all]
  | cons v l ih =>
    simp only [all]
    constructor
    · intro h
      split at h
      · rename_i x r' h1 h2
        cases h
        rw [(text_iff ..).mp h1, ih.mp h2]; rfl
      · cases h
    · intro h
      cases r with
      | nil => cases h
      | cons x r =>
        simp only [List.map_cons, List.cons.injEq] at h
        rw [(text_iff ..).mpr h.1, ih.mpr h.2]

theorem entries_iff {K α : Type} {key : Str → Option K} {read : Json → Option α} {M : Json → α → Prop}
    (h : ∀ v x, read v = some x ↔ M v x) {m : List (Str × Json)} {l : List (K × α)} :
    entries key read m = some l ↔
      List.Forall₂ (fun (e : Str × Json) (x : K × α) => key e.1 = some x.1 ∧ M e.2 x.2) m l := by
  induction m generalizing l with
  | nil => cases l <;> simp [entries]
  | cons e m ih =>
    obtain ⟨k, v⟩ := e
    simp only [entries]
    constructor
    · intro hx
      split at hx
      · rename_i a x r h1 h2 h3
        cases hx
        exact .cons ⟨h1, (h _ _).mp h2⟩ (ih.mp h3)
      · cases hx
    · intro hx
      cases hx with
      | @cons _ x _ l h1 h2 =>
        rw [show key k = _ from h1.1, (h v _).mpr h1.2, ih.mpr h2]

theorem table_iff {K α : Type} [DecidableEq K] {key : Str → Option K} {read : Json → Option α} {M : Json → α → Prop}
    (h : ∀ v x, read v = some x ↔ M v x) (v : Json) (t : IMap K α) : table key read v = some t ↔ TableAs key M v t := by
  cases v with
  | obj m =>
    simp only [table, Option.map_eq_some_iff, TableAs, entries_iff h, Json.obj.injEq]
    constructor
    · rintro ⟨l, h1, rfl⟩; exact ⟨m, l, rfl, h1, rfl⟩
    · rintro ⟨m', l, rfl, h1, h2⟩; exact ⟨l, h1, h2.symm⟩
  | _ => simp [table, TableAs]

theorem textTable_iff (v : Json) (t : IMap Str Str) : textTable v = some t ↔ Texts v t := by
  unfold textTable
  rw [table_iff text_iff]
  constructor
  · rintro ⟨m, l, rfl, h1, rfl⟩
    refine ⟨l, ?_, rfl⟩
    congr 1
    induction h1 with
    | nil => rfl
    | @cons e x m l h _ ih =>
      rw [List.map_cons, ← ih]
      obtain ⟨k, v⟩ := e
      obtain ⟨h1, h2⟩ := h
      rw [show v = _ from h2, Option.some.inj (show some k = some x.1 from h1)]
  · rintro ⟨l, rfl, rfl⟩
    refine ⟨_, l, rfl, ?_, rfl⟩
    induction l with
    | nil => exact .nil
    | cons e l ih => exact .cons ⟨rfl, rfl⟩ ih

theorem bundled_iff (v : Json) (b : Bundled) : bundled v = some b ↔ BundledAs v b := by
  cases v with
  | arr l =>
    simp only [bundled, BundledAs, Option.map_eq_some_iff, all_text]
    constructor
    · rintro ⟨r, h1, h2⟩; exact .inr ⟨r, by rw [h1], h2.symm⟩
    · rintro (⟨_, h, _⟩ | ⟨r, h1, h2⟩)
      · cases h
      · exact ⟨r, Json.arr.inj h1, h2.symm⟩
  | _ => simp [bundled, BundledAs, eq_comm]

theorem textAs_iff {α : Type} {parse : Str → Option α} (v : Json) (x : α) : (text v).bind parse = some x ↔ TextAs parse v x := by
  cases v <;> simp [text, TextAs]

/-! ### fields -/

theorem filter_nil_iff {names : List Str} {m : List (Str × Json)} :
    m.filter (fun e => names.contains e.1) = [] ↔ Absent names m := by
  simp [List.filter_eq_nil_iff, Absent]

theorem filter_one_iff {names : List Str} {m : List (Str × Json)} {e : Str × Json} :
    m.filter (fun e => names.contains e.1) = [e] ↔
      ∃ a b, m = a ++ e :: b ∧ e.1 ∈ names ∧ Absent names a ∧ Absent names b := by
  constructor
  · intro h
    obtain ⟨a, b, rfl, h1, h2, h3⟩ := List.filter_eq_cons_iff.mp h
    refine ⟨a, b, rfl, by simpa using h2, ?_, filter_nil_iff.mp h3⟩
    intro x hx; simpa using h1 x hx
  · rintro ⟨a, b, rfl, h1, h2, h3⟩
    rw [List.filter_append, filter_nil_iff.mpr h2, List.filter_cons, if_pos (by simpa using h1), filter_nil_iff.mpr h3]
    rfl

theorem field_iff {α : Type} {names : List Str} {read : Json → Option α} {M : Json → α → Prop}
    (h : ∀ v x, read v = some x ↔ M v x) (d : α) (m : List (Str × Json)) (x : α) :
    field names read d m = some x ↔ Says names M d m x := by
  unfold field Says
  constructor
  · intro hx
    split at hx
    · rename_i he
      cases hx
      exact .inl ⟨filter_nil_iff.mp he, rfl⟩
    · rename_i e he
      obtain ⟨a, b, h1, h2, h3, h4⟩ := filter_one_iff.mp he
      exact .inr ⟨e.2, ⟨a, e.1, b, h1, h2, h3, h4⟩, (h _ _).mp hx⟩
    · cases hx
  · rintro (⟨h1, rfl⟩ | ⟨v, ⟨a, k, b, h1, h2, h3, h4⟩, h5⟩)
    · rw [filter_nil_iff.mpr h1]
    · rw [filter_one_iff.mpr ⟨a, b, h1, h2, h3, h4⟩]
      exact (h _ _).mpr h5

/-! ### documents -/

section
variable {V : Type} [DecidableEq V]

/-- C79. A package.json is read as what it says, and exactly if it says something. -/
theorem C79_manifest (parseV : Str → Option V) (m : List (Str × Json)) (r : CManifest V Bundled) :
    readPackageJson parseV (.obj m) = some r ↔ Describes parseV m r := by
  show readManifest parseV m = some r ↔ _
  unfold readManifest version
  constructor
  · intro h
    simp only [Option.bind_eq_bind, Option.bind_eq_some_iff] at h
    obtain ⟨a, ha, b, hb, c, hc, d, hd, e, he, f, hf, g, hg, h⟩ := h
    cases h
    exact ⟨(field_iff (orNull_iff text_iff) ..).mp ha, (field_iff (orNull_iff textAs_iff) ..).mp hb,
      (field_iff textTable_iff ..).mp hc, (field_iff textTable_iff ..).mp hd, (field_iff textTable_iff ..).mp he,
      (field_iff textTable_iff ..).mp hf, (field_iff (orNull_iff bundled_iff) ..).mp hg⟩
  · rintro ⟨ha, hb, hc, hd, he, hf, hg⟩
    rw [(field_iff (orNull_iff text_iff) ..).mpr ha, (field_iff (orNull_iff textAs_iff) ..).mpr hb,
      (field_iff textTable_iff ..).mpr hc, (field_iff textTable_iff ..).mpr hd, (field_iff textTable_iff ..).mpr he,
      (field_iff textTable_iff ..).mpr hf, (field_iff (orNull_iff bundled_iff) ..).mpr hg]
    rfl

theorem readManifest_iff (parseV : Str → Option V) (m : List (Str × Json)) (r : CManifest V Bundled) :
    readManifest parseV m = some r ↔ Describes parseV m r := C79_manifest parseV m r

theorem dist_iff (url : Str → Option Str) (v : Json) (d : CDist) : readDist url v = some d ↔ DistAs url v d := by
  cases v with
  | obj m =>
    unfold readDist DistAs
    simp only [Json.obj.injEq]
    constructor
    · intro h
      simp only [Option.bind_eq_bind, Option.bind_eq_some_iff] at h
      obtain ⟨a, ha, b, hb, c, hc, e, he, h⟩ := h
      cases h
      exact ⟨m, rfl, (field_iff (orNull_iff text_iff) ..).mp ha, (field_iff (orNull_iff textAs_iff) ..).mp hb,
        (field_iff (orNull_iff text_iff) ..).mp hc, (field_iff (orNull_iff text_iff) ..).mp he⟩
    · rintro ⟨_, rfl, ha, hb, hc, he⟩
      rw [(field_iff (orNull_iff text_iff) ..).mpr ha, (field_iff (orNull_iff textAs_iff) ..).mpr hb,
        (field_iff (orNull_iff text_iff) ..).mpr hc, (field_iff (orNull_iff text_iff) ..).mpr he]
      rfl
  | _ => simp [readDist, DistAs]

theorem deprecation_iff (v : Json) (x : Option Deprecation) : deprecation v = some x ↔ DeprecatedAs v x := by
  cases v with
  | bool b => cases b <;> simp [deprecation, DeprecatedAs, eq_comm]
  | _ => simp [deprecation, DeprecatedAs, eq_comm]

/-- C79. The entry of a version is read as what it says. -/
theorem C79_version (parseV : Str → Option V) (url : Str → Option Str) (v : Json) (x : CVersion V Bundled Deprecation) :
    readVersion parseV url v = some x ↔ VersionAs parseV url v x := by
  cases v with
  | obj m =>
    unfold readVersion VersionAs
    simp only [Json.obj.injEq]
    constructor
    · intro h
      simp only [Option.bind_eq_bind, Option.bind_eq_some_iff] at h
      obtain ⟨a, ha, b, hb, c, hc, e, he, h⟩ := h
      cases h
      exact ⟨m, rfl, (readManifest_iff ..).mp he, (field_iff (dist_iff url) ..).mp ha,
        (field_iff (orNull_iff flag_iff) ..).mp hb, (field_iff deprecation_iff ..).mp hc⟩
    · rintro ⟨_, rfl, he, ha, hb, hc⟩
      rw [(readManifest_iff ..).mpr he, (field_iff (dist_iff url) ..).mpr ha,
        (field_iff (orNull_iff flag_iff) ..).mpr hb, (field_iff deprecation_iff ..).mpr hc]
      rfl
  | _ => simp [readVersion, VersionAs]

/-- C79. A registry's description of a package is read as what it says: all its versions and tags. -/
theorem C79_packument (parseV : Str → Option V) (url : Str → Option Str) (v : Json) (p : CPackument V Bundled Deprecation) :
    readPackument parseV url v = some p ↔ PackumentAs parseV url v p := by
  cases v with
  | obj m =>
    unfold readPackument PackumentAs version
    simp only [Json.obj.injEq]
    constructor
    · intro h
      simp only [Option.bind_eq_bind, Option.bind_eq_some_iff] at h
      obtain ⟨a, ha, b, hb, h⟩ := h
      cases h
      exact ⟨m, rfl, (field_iff (table_iff (C79_version parseV url)) ..).mp ha, (field_iff (table_iff textAs_iff) ..).mp hb⟩
    · rintro ⟨_, rfl, ha, hb⟩
      rw [(field_iff (table_iff (C79_version parseV url)) ..).mpr ha, (field_iff (table_iff textAs_iff) ..).mpr hb]
      rfl
  | _ => simp [readPackument, PackumentAs]

/-! ### what does not matter -/

theorem field_other {α : Type} {names : List Str} {read : Json → Option α} {d : α} {a b : List (Str × Json)} {k : Str} {v : Json}
    (hk : k ∉ names) : field names read d (a ++ (k, v) :: b) = field names read d (a ++ b) := by
  unfold field
  rw [List.filter_append, List.filter_append, List.filter_cons, if_neg (by simpa using hk)]

theorem field_perm {α : Type} {names : List Str} {read : Json → Option α} {d : α} {m m' : List (Str × Json)} (h : m.Perm m') :
    field names read d m = field names read d m' := by
  unfold field
  have hp := h.filter fun e => names.contains e.1
  revert hp
  generalize m.filter (fun e => names.contains e.1) = l
  generalize m'.filter (fun e => names.contains e.1) = l'
  intro hp
  match l, l', hp with
  | [], l', hp => rw [hp.nil_eq]
  | [e], l', hp => rw [hp.singleton_eq]
  | _ :: _ :: _, [], hp => exact absurd hp.length_eq (by simp)
  | _ :: _ :: _, [_], hp => exact absurd hp.length_eq (by simp)
  | _ :: _ :: _, _ :: _ :: _, _ => rfl

/-- the fields of a package.json that count -/
def manifestFields : List Str :=
  [kName, kVersion, kDependencies, kDevDependencies, kOptionalDependencies, kPeerDependencies, kBundled, kBundle]

/-- C79. Fields of other names do not matter, whatever their values, nor does the order of fields: in a package.json, in
the entry of a version and in a registry's description. -/
theorem C79_other_fields (parseV : Str → Option V) (url : Str → Option Str) (a b : List (Str × Json)) (k : Str) (v : Json) :
    (k ∉ manifestFields → readPackageJson parseV (.obj (a ++ (k, v) :: b)) = readPackageJson parseV (.obj (a ++ b))) ∧
    (k ∉ [kDist, kShrinkwrap, kDeprecated] ++ manifestFields →
      readVersion parseV url (.obj (a ++ (k, v) :: b)) = readVersion parseV url (.obj (a ++ b))) ∧
    (k ∉ [kVersions, kTags] → readPackument parseV url (.obj (a ++ (k, v) :: b)) = readPackument parseV url (.obj (a ++ b))) := by
  have h1 : k ∉ manifestFields → readManifest parseV (a ++ (k, v) :: b) = readManifest parseV (a ++ b) := by
    intro h
    simp only [manifestFields, List.mem_cons, List.not_mem_nil, or_false, not_or] at h
    unfold readManifest
    rw [field_other (by simp [h]), field_other (by simp [h]), field_other (by simp [h]), field_other (by simp [h]),
      field_other (by simp [h]), field_other (by simp [h]), field_other (by simp [h])]
  refine ⟨h1, ?_, ?_⟩
  · intro h
    have hm : k ∉ manifestFields := fun hx => h (List.mem_append_right _ hx)
    have h3 : k ∉ [kDist, kShrinkwrap, kDeprecated] := fun hx => h (List.mem_append_left _ hx)
    simp only [List.mem_cons, List.not_mem_nil, or_false, not_or] at h3
    unfold readVersion
    dsimp only
    rw [field_other (by simp [h3]), field_other (by simp [h3]), field_other (by simp [h3]), h1 hm]
  · intro h
    simp only [List.mem_cons, List.not_mem_nil, or_false, not_or] at h
    unfold readPackument
    dsimp only
    rw [field_other (by simp [h]), field_other (by simp [h])]

@[inherit_doc C79_other_fields]
theorem C79_order (parseV : Str → Option V) (url : Str → Option Str) {m m' : List (Str × Json)} (h : m.Perm m') :
    readPackageJson parseV (.obj m) = readPackageJson parseV (.obj m') ∧
    readVersion parseV url (.obj m) = readVersion parseV url (.obj m') ∧
    readPackument parseV url (.obj m) = readPackument parseV url (.obj m') := by
  have h1 : readManifest parseV m = readManifest parseV m' := by
    unfold readManifest
    simp only [field_perm h]
  refine ⟨h1, ?_, ?_⟩
  · unfold readVersion
    dsimp only
    simp only [field_perm h, h1]
  · unfold readPackument
    dsimp only
    simp only [field_perm h]

theorem ofList_last {K α : Type} [DecidableEq K] (l1 l2 : List (K × α)) (k : K) (x : α) (h : ∀ e ∈ l2, e.1 ≠ k) :
    (IMap.ofList (l1 ++ (k, x) :: l2)).get? k = some x := by
  unfold IMap.ofList
  rw [List.foldl_append, List.foldl_cons]
  generalize l1.foldl (fun m kv => IMap.insert m kv.1 kv.2) [] = acc
  have : ∀ (l : List (K × α)) (acc : IMap K α), (∀ e ∈ l, e.1 ≠ k) → acc.get? k = some x →
      (l.foldl (fun m kv => IMap.insert m kv.1 kv.2) acc).get? k = some x := by
    intro l
    induction l with
    | nil => intro acc _ h; exact h
    | cons e l ih =>
      intro acc h hx
      refine ih _ (fun e he => h e (List.mem_cons_of_mem _ he)) ?_
      rw [IMap.get?_insert_ne _ _ (Ne.symm (h e List.mem_cons_self))]
      exact hx
  exact this l2 _ h (IMap.get?_insert_self ..)

theorem forall₂_split {α β : Type} {R : α → β → Prop} : ∀ {a c : List α} {l : List β}, List.Forall₂ R (a ++ c) l →
    ∃ l1 l2, List.Forall₂ R a l1 ∧ List.Forall₂ R c l2 ∧ l = l1 ++ l2
  | [], _, l, h => ⟨[], l, .nil, h, rfl⟩
  | _ :: _, _, _, .cons h t => by
    obtain ⟨l1, l2, h1, h2, rfl⟩ := forall₂_split t
    exact ⟨_ :: l1, l2, .cons h h1, h2, rfl⟩

/-- C79. In a description that was read, a version is what its entry says. -/
theorem C79_lookup {parseV : Str → Option V} {url : Str → Option Str} {m : List (Str × Json)} {p : CPackument V Bundled Deprecation}
    (h : readPackument parseV url (.obj m) = some p) {a b : List (Str × Json)} {t : Str} {e : Json} {v : V}
    (hv : Once [kVersions] m (.obj (a ++ (t, e) :: b))) (ht : parseV t = some v) (hb : ∀ x ∈ b, parseV x.1 ≠ some v) :
    ∃ x, VersionAs parseV url e x ∧ p.versions.get? v = some x := by
  obtain ⟨_, hm, hs, _⟩ := (C79_packument ..).mp h
  cases hm
  rcases hs with ⟨ha, _⟩ | ⟨w, hw, m', l, rfl, hf, hp⟩
  · obtain ⟨c, k, d, rfl, hk, _⟩ := hv
    exact absurd hk (ha _ (List.mem_append_right _ List.mem_cons_self))
  · have : Json.obj m' = .obj (a ++ (t, e) :: b) := by
      obtain ⟨c, k, d, h1, hk, hc, hd⟩ := hv
      obtain ⟨c', k', d', h1', hk', hc', hd'⟩ := hw
      have e1 := filter_one_iff.mpr ⟨c, d, h1, hk, hc, hd⟩
      have e2 := filter_one_iff.mpr ⟨c', d', h1', hk', hc', hd'⟩
      rw [e1] at e2
      simp only [List.cons.injEq, Prod.mk.injEq, and_true] at e2
      exact e2.2.symm
    cases this
    obtain ⟨l1, l2, hf1, hf2, rfl⟩ := forall₂_split hf
    cases hf2 with
    | @cons _ x _ l2 h1 h2 =>
      obtain ⟨xv, xx⟩ := x
      have hxv : xv = v := by
        have := h1.1
        rw [show parseV t = _ from ht] at this
        exact (Option.some.inj this).symm
      subst hxv
      refine ⟨xx, h1.2, ?_⟩
      rw [hp]
      refine ofList_last _ _ _ _ ?_
      intro y hy
      obtain ⟨z, hz, hzy⟩ : ∃ z ∈ b, parseV z.1 = some y.1 := by
        clear hp hf1 h1 hb hf hv hw
        induction h2 with
        | nil => cases hy
        | @cons z y' b l h _ ih =>
          rcases List.mem_cons.mp hy with rfl | hy
          · exact ⟨z, List.mem_cons_self, h.1⟩
          · obtain ⟨z, h1, h2⟩ := ih hy
            exact ⟨z, List.mem_cons_of_mem _ h1, h2⟩
      intro hc
      exact hb z hz (hc ▸ hzy)

/-! ### commands and scripts -/

theorem bin_iff (v : Json) (b : Bins.Bin) : readBin v = some b ↔ BinAs v b := by
  cases v with
  | obj m =>
    simp only [readBin, BinAs, Option.map_eq_some_iff, textTable_iff]
    constructor
    · rintro ⟨t, h1, h2⟩; exact .inr (.inl ⟨t, h1, h2.symm⟩)
    · rintro (⟨_, h, _⟩ | ⟨t, h1, h2⟩ | ⟨_, h, _⟩)
      · cases h
      · exact ⟨t, h1, h2.symm⟩
      · cases h
  | arr l =>
    simp only [readBin, BinAs, Option.map_eq_some_iff, all_text]
    constructor
    · rintro ⟨t, h1, h2⟩; exact .inr (.inr ⟨t, by rw [h1], h2.symm⟩)
    · rintro (⟨_, h, _⟩ | ⟨t, ⟨_, h1, _⟩, h2⟩ | ⟨t, h1, h2⟩)
      · cases h
      · cases h1
      · exact ⟨t, Json.arr.inj h1, h2.symm⟩
  | str s =>
    simp only [readBin, BinAs, Option.some.injEq]
    constructor
    · intro h; exact .inl ⟨s, rfl, h.symm⟩
    · rintro (⟨_, h, h2⟩ | ⟨t, ⟨_, h1, _⟩, h2⟩ | ⟨t, h1, h2⟩)
      · cases h; exact h2.symm
      · cases h1
      · cases h1
  | _ => simp [readBin, BinAs, Texts]

theorem dirs_iff (v : Json) (b : Option Str) : readDirs v = some b ↔ DirsAs v b := by
  cases v with
  | obj m =>
    simp only [readDirs, DirsAs, Option.bind_eq_bind, Option.bind_eq_some_iff]
    constructor
    · rintro ⟨a, ha, c, hc, h⟩
      cases h
      exact ⟨m, rfl, (field_iff (orNull_iff text_iff) ..).mp ha, c, (field_iff (orNull_iff text_iff) ..).mp hc⟩
    · rintro ⟨_, h, ha, c, hc⟩
      cases h
      exact ⟨b, (field_iff (orNull_iff text_iff) ..).mpr ha, c, (field_iff (orNull_iff text_iff) ..).mpr hc, rfl⟩
  | _ => simp [readDirs, DirsAs]

/-- C79. The commands and scripts of an installed package are those its package.json says. -/
theorem C79_build (m : List (Str × Json)) (r : Bins.Raw) (scripts : IMap Str Str) :
    readBuild (.obj m) = some (r, scripts) ↔ BuildAs m r scripts := by
  simp only [readBuild, Option.bind_eq_bind, Option.bind_eq_some_iff]
  constructor
  · rintro ⟨a, ha, b, hb, c, hc, d, hd, h⟩
    cases h
    exact ⟨(field_iff (orNull_iff text_iff) ..).mp ha, (field_iff (orNull_iff bin_iff) ..).mp hb,
      ⟨c, (field_iff (orNull_iff dirs_iff) ..).mp hc, rfl⟩, (field_iff textTable_iff ..).mp hd⟩
  · rintro ⟨ha, hb, ⟨c, hc, h⟩, hd⟩
    refine ⟨_, (field_iff (orNull_iff text_iff) ..).mpr ha, _, (field_iff (orNull_iff bin_iff) ..).mpr hb, c,
      (field_iff (orNull_iff dirs_iff) ..).mpr hc, _, (field_iff textTable_iff ..).mpr hd, ?_⟩
    rw [← h]; rfl

/-- C79. The name of a package in a folder is the one in its package.json, or the folder's name. -/
theorem C79_name {parseV : Str → Option V} {folder : Option Str} {m : List (Str × Json)} {n : Str}
    (h : nameFromPath parseV folder (.obj m) = some n) :
    Says [kName] (Maybe Text) none m (some n) ∨ (Says [kName] (Maybe Text) none m none ∧ folder = some n) := by
  simp only [nameFromPath, Option.bind_eq_some_iff] at h
  obtain ⟨r, h1, h2⟩ := h
  unfold readFullManifest at h1
  split at h1
  · have hd := (readManifest_iff ..).mp h1
    have hn := hd.name
    cases hr : r.name with
    | none => rw [hr] at h2 hn; exact .inr ⟨hn, h2⟩
    | some x =>
      rw [hr] at h2 hn
      cases h2
      exact .inl hn
  · cases h1

/-! ### what the code does not read -/

theorem Once.unique {names : List Str} {m : List (Str × Json)} {v : Json} (h : Once names m v) {k : Str} {w : Json}
    (hk : k ∈ names) (hw : (k, w) ∈ m) : w = v := by
  obtain ⟨a, k', b, rfl, hk', ha, hb⟩ := h
  rcases List.mem_append.mp hw with h | h
  · exact absurd hk (ha _ h)
  · rcases List.mem_cons.mp h with h | h
    · cases h; rfl
    · exact absurd hk (hb _ h)

theorem Says.value {α : Type} {names : List Str} {M : Json → α → Prop} {d x : α} {m : List (Str × Json)}
    (h : Says names M d m x) {k : Str} {w : Json} (hk : k ∈ names) (hw : (k, w) ∈ m) : M w x := by
  rcases h with ⟨h, _⟩ | ⟨v, h1, h2⟩
  · exact absurd hk (h _ hw)
  · rw [h1.unique hk hw]; exact h2

theorem none_of {α : Type} {o : Option α} (h : ∀ x, o ≠ some x) : o = none := by
  cases o with
  | none => rfl
  | some x => exact absurd rfl (h x)

/-- C79 fails: if one version's dependencies are written as a list (or `null`), no version can be read. -/
theorem C79_one_version_fails (parseV : Str → Option V) (url : Str → Option Str) {m vs o : List (Str × Json)} {t : Str} {d : Json}
    (hv : (kVersions, .obj vs) ∈ m) (ht : (t, .obj o) ∈ vs) (ho : (kDependencies, d) ∈ o) (hd : ∀ x, d ≠ .obj x) :
    readPackument parseV url (.obj m) = none := by
  refine none_of fun p hp => ?_
  obtain ⟨_, hm, hs, _⟩ := (C79_packument ..).mp hp
  cases hm
  obtain ⟨m', l, hm', hf, hpv⟩ := hs.value (by simp) hv
  cases hm'
  clear hs hp hv hpv
  induction hf with
  | nil => cases ht
  | @cons e x _ _ h _ ih =>
    rcases List.mem_cons.mp ht with rfl | ht
    · obtain ⟨_, o', he, hdesc, _⟩ := h
      cases he
      obtain ⟨l, hl, _⟩ := hdesc.dependencies.value (by simp) ho
      exact hd _ hl
    · exact ih ht

/-- C79 fails: a package.json with both spellings of `bundleDependencies` cannot be read. -/
theorem C79_both_fails (parseV : Str → Option V) {m : List (Str × Json)} {x y : Json} (hx : (kBundled, x) ∈ m)
    (hy : (kBundle, y) ∈ m) : readPackageJson parseV (.obj m) = none := by
  refine none_of fun r hr => ?_
  rcases ((C79_manifest ..).mp hr).bundled with ⟨h, _⟩ | ⟨v, ⟨a, k, b, rfl, hk, ha, hb⟩, _⟩
  · exact h _ hx (by simp)
  · have key : ∀ (n : Str) (w : Json), n ∈ [kBundled, kBundle] → (n, w) ∈ a ++ (k, v) :: b → n = k := by
      intro n w hn hin
      rcases List.mem_append.mp hin with h | h
      · exact absurd hn (ha _ h)
      · rcases List.mem_cons.mp h with h | h
        · cases h; rfl
        · exact absurd hn (hb _ h)
    have := (key _ _ (by simp) hx).trans (key _ _ (by simp) hy).symm
    exact absurd this (by decide)

theorem fine_value {names : List Str} {ok : Json → Bool} {m : List (Str × Json)} (h : fine names ok m = true) {k : Str} {w : Json}
    (hk : k ∈ names) (hw : (k, w) ∈ m) : ok w = true := by
  unfold fine at h
  obtain ⟨u, hu⟩ := Option.isSome_iff_exists.mp h
  have := (field_iff (M := fun v _ => ok v = true) (fun v x => by
    by_cases hv : ok v = true
    · simp [hv]
    · simp [hv]) () m u).mp hu
  exact this.value hk hw

/-- C79 fails: a directory or repository whose package.json has the license as a table (the old form), or the workspaces as
a table, cannot be named, however it is written otherwise. -/
theorem C79_license_fails (parseV : Str → Option V) (folder : Option Str) {m o : List (Str × Json)}
    (h : (kLicense, .obj o) ∈ m ∨ (kWorkspaces, .obj o) ∈ m) : nameFromPath parseV folder (.obj m) = none := by
  refine none_of fun n hn => ?_
  simp only [nameFromPath, Option.bind_eq_some_iff] at hn
  obtain ⟨r, h1, _⟩ := hn
  unfold readFullManifest at h1
  split at h1
  · rename_i hc
    simp only [Bool.and_eq_true] at hc
    rcases h with h | h
    · have := fine_value (k := kLicense) (by tauto : fine [kLicense, kLicence] isText m = true) (by simp) h
      simp [isText, orNull, text] at this
    · have := fine_value (k := kWorkspaces) (by tauto : fine [kWorkspaces] isTexts m = true) (by simp) h
      simp [isTexts, list] at this
  · cases h1

/-- C79 fails: so it is when the author, or the repository, or the place for bugs, is a table one of whose known fields is
neither a text nor `null`. -/
theorem C79_inner_fails (parseV : Str → Option V) (folder : Option Str) {m o : List (Str × Json)} {f : Str} {v : Json}
    (h : (kAuthor, .obj o) ∈ m ∧ f ∈ [kName, kEmail, kUrl] ∨ (kBugs, .obj o) ∈ m ∧ f ∈ [kUrl, kEmail] ∨
      (kRepository, .obj o) ∈ m ∧ f ∈ [kType, kUrl, kDirectory])
    (hf : (f, v) ∈ o) (hv : v ≠ .null) (ht : ∀ s, v ≠ .str s) : nameFromPath parseV folder (.obj m) = none := by
  have key : ∀ {fields : List Str}, f ∈ fields → isTextOr fields (.obj o) = true → False := by
    intro fields hm hok
    simp only [isTextOr, List.all_eq_true] at hok
    have := fine_value (hok f hm) (List.mem_singleton.2 rfl) hf
    cases v <;> simp_all [isText, orNull, text]
  refine none_of fun n hn => ?_
  simp only [nameFromPath, Option.bind_eq_some_iff] at hn
  obtain ⟨r, h1, _⟩ := hn
  unfold readFullManifest at h1
  split at h1
  · rename_i hc
    simp only [Bool.and_eq_true] at hc
    rcases h with ⟨h, hm⟩ | ⟨h, hm⟩ | ⟨h, hm⟩
    · exact key hm (fine_value (k := kAuthor) (ok := orNull' (isTextOr [kName, kEmail, kUrl])) (by tauto) (by simp) h)
    · exact key hm (fine_value (k := kBugs) (ok := orNull' (isTextOr [kUrl, kEmail])) (by tauto) (by simp) h)
    · exact key hm (fine_value (k := kRepository) (ok := orNull' (isTextOr [kType, kUrl, kDirectory])) (by tauto) (by simp) h)
  · cases h1

/-- C79 fails: a package one of whose scripts is not a text (`null`, say) cannot be installed: its commands are not read. -/
theorem C79_script_fails {m sc : List (Str × Json)} {n : Str} {v : Json} (hs : (kScripts, .obj sc) ∈ m) (hn : (n, v) ∈ sc)
    (hv : ∀ s, v ≠ .str s) : readBuild (.obj m) = none := by
  refine none_of fun r hr => ?_
  obtain ⟨l, hl, _⟩ := ((C79_build m r.1 r.2).mp hr).scripts.value (by simp) hs
  cases hl
  obtain ⟨e, _, he⟩ := List.mem_map.mp hn
  cases he
  exact hv _ rfl

end

/-! ### examples -/

namespace ExD
/-- versions are texts of digits -/
def ver (s : Str) : Option Str := if s.all Char.isDigit then some s else none
def one : Json := .obj [(kName, .str ['a']), (kVersion, .str ['1']), (kHomepage, .num ['7']),
  (kDependencies, .obj [(['b'], .str ['^', '1'])]), (kDist, .obj [(kTarball, .str ['u'])])]
/-- two versions, the second one with an empty list of dependencies -/
def doc (d : Json) : List (Str × Json) :=
  [(kTags, .obj [(Meta.latest, .str ['1'])]), (kVersions, .obj [(['1'], one), (['2'], .obj [(kDependencies, d)])])]

/-- a description that is read: both versions are there -/
example : ((readPackument ver some (.obj (doc (.obj [])))).map fun p => p.versions.map fun e => (e.1, e.2.manifest.dependencies))
    = some [(['1'], [(['b'], ['^', '1'])]), (['2'], [])] := by decide +kernel

/-- the same with an odd second version -/
example : readPackument ver some (.obj (doc (.arr []))) = none :=
  C79_one_version_fails ver some (List.mem_cons_of_mem _ List.mem_cons_self) (List.mem_cons_of_mem _ List.mem_cons_self)
    List.mem_cons_self (fun x h => (by cases h))

/-- a package.json that is read when it is the project's, but not when it is a dependency's -/
def old : List (Str × Json) := [(kName, .str ['a']), (kLicense, .obj [(kType, .str ['M', 'I', 'T'])])]
example : ((readPackageJson ver (.obj old)).map fun r => r.name) = some (some ['a']) ∧ nameFromPath ver none (.obj old) = none :=
  ⟨by decide +kernel, C79_license_fails ver none (.inl (List.mem_cons_of_mem _ List.mem_cons_self))⟩
/-- an author with an age for a name -/
example : nameFromPath ver none (.obj [(kName, .str ['a']), (kAuthor, .obj [(kEmail, .str ['e']), (kName, .num ['7'])])]) = none :=
  C79_inner_fails ver none (.inl ⟨List.mem_cons_of_mem _ List.mem_cons_self, List.mem_cons_self⟩)
    (List.mem_cons_of_mem _ List.mem_cons_self) (fun h => (by cases h)) (fun s h => (by cases h))
end ExD
end Docs
end Oro
