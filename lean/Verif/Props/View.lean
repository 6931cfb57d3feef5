import Verif.Spec.View
import Verif.Props.Documents
import Verif.Props.Bins
import Verif.Proofs.AtPath
/- C83: what `oro view` shows. -/

set_option linter.unusedSectionVars false

namespace Oro
namespace View
open Docs Meta

theorem Prints.part {out a p b : Str} (h : out = a ++ p ++ b) : Prints out p := ⟨a, b, h⟩

section
variable {V : Type} [DecidableEq V]

/-! ### reading -/

theorem person_iff (v : Json) (p : Person) : readPerson v = some p ↔ PersonAs v p := by
  cases v with
  | str s =>
    simp only [readPerson, Option.some.injEq, PersonAs, Json.str.injEq, reduceCtorEq, false_and, exists_false, or_false]
    exact ⟨fun h => ⟨s, rfl, h.symm⟩, fun ⟨t, h1, h2⟩ => by rw [h1, h2]⟩
  | obj m =>
    simp only [readPerson, Option.bind_eq_bind, Option.bind_eq_some_iff, Option.pure_def, Option.some.injEq, PersonAs, reduceCtorEq,
      false_and, exists_false, false_or, Json.obj.injEq]
    constructor
    · rintro ⟨n, h1, e, h2, u, h3, rfl⟩
      exact ⟨m, n, e, u, rfl, (field_iff (orNull_iff text_iff) _ _ _).1 h1, (field_iff (orNull_iff text_iff) _ _ _).1 h2,
        (field_iff (orNull_iff text_iff) _ _ _).1 h3, rfl⟩
    · rintro ⟨m', n, e, u, rfl, h1, h2, h3, rfl⟩
      exact ⟨n, (field_iff (orNull_iff text_iff) _ _ _).2 h1, e, (field_iff (orNull_iff text_iff) _ _ _).2 h2,
        u, (field_iff (orNull_iff text_iff) _ _ _).2 h3, rfl⟩
  | _ => simp [readPerson, PersonAs]

theorem user_iff (v : Json) (u : Str × Option Str) : readUser v = some u ↔ UserAs v u := by
  have hs : ∀ (v : Json) (x : Option Str), (text v).map some = some x ↔ ∃ s, v = .str s ∧ x = some s := by
    intro v x
    cases v <;> simp [text, eq_comm]
  cases v with
  | obj m =>
    simp only [readUser, Option.bind_eq_bind, Option.bind_eq_some_iff, Option.map_eq_some_iff, UserAs, Json.obj.injEq]
    constructor
    · rintro ⟨n, h1, e, h2, s, hn, rfl⟩
      subst hn
      refine ⟨m, rfl, ?_, (field_iff (orNull_iff text_iff) _ _ _).1 h2⟩
      rcases (field_iff hs _ _ _).1 h1 with ⟨_, h⟩ | ⟨v, ho, t, hv, he⟩
      · cases h
      · cases he; subst hv; exact ho
    · rintro ⟨m', rfl, h1, h2⟩
      exact ⟨some u.1, (field_iff hs _ _ _).2 (.inr ⟨_, h1, _, rfl, rfl⟩), u.2, (field_iff (orNull_iff text_iff) _ _ _).2 h2, u.1, rfl, rfl⟩
  | _ => simp [readUser, UserAs]

theorem list_iff {α : Type} {read : Json → Option α} {M : Json → α → Prop} (h : ∀ v x, read v = some x ↔ M v x) (v : Json)
    (l : List α) : list read v = some l ↔ ListAs M v l := by
  have hall : ∀ (js : List Json) (l : List α), all read js = some l ↔ List.Forall₂ M js l := by
    intro js
    induction js with
    | nil => intro l; cases l <;> simp [all]
    | cons j js ih =>
      intro l
      unfold all
      cases hj : read j with
      | none =>
        simp only [reduceCtorEq, false_iff]
        intro hf
        cases hf with
        | cons ha hb => rw [(h _ _).2 ha] at hj; cases hj
      | some a =>
        cases hr : all read js with
        | none =>
          simp only [reduceCtorEq, false_iff]
          intro hf
          cases hf with
          | cons ha hb => rw [(ih _).2 hb] at hr; cases hr
        | some r =>
          simp only [Option.some.injEq]
          constructor
          · rintro rfl
            exact .cons ((h _ _).1 hj) ((ih _).1 hr)
          · intro hf
            cases hf with
            | cons ha hb =>
              rw [(h _ _).2 ha] at hj
              rw [(ih _).2 hb] at hr
              cases hj; cases hr; rfl
  cases v with
  | arr js =>
    simp only [list, ListAs, Json.arr.injEq]
    rw [hall]
    exact ⟨fun hf => ⟨js, rfl, hf⟩, fun ⟨_, h1, h2⟩ => by subst h1; exact h2⟩
  | _ => simp [list, ListAs]

theorem full_manifest {parseV : Str → Option V} {m : List (Str × Json)} {r : CManifest V Bundled}
    (h : readFullManifest parseV m = some r) : readManifest parseV m = some r := by
  unfold readFullManifest at h
  split at h
  · exact h
  · cases h

/-- the fields that a readable entry has -/
theorem info_parts {parseV : Str → Option V} {url : Str → Option Str} {size : Json → Option Nat} {v : Json} {i : Info V}
    (h : readInfo parseV url size v = some i) : ∃ m, v = .obj m ∧ readFullManifest parseV m = some i.manifest ∧
      field [kDist] (readFullDist url size) (⟨none, none, none, none⟩, none) m = some (i.dist, i.unpacked) ∧
      (∃ s, field [kShrinkwrap] (orNull flag) none m = some s) ∧
      field [kDeprecated] Docs.deprecation none m = some i.deprecated ∧
      field [kMaintainers] (list readPerson) [] m = some i.maintainers ∧
      field [kNpmUser] (orNull readUser) none m = some i.user ∧
      field [kDescription] (orNull text) none m = some i.description ∧
      field [kLicense, kLicence] (orNull text) none m = some i.license ∧
      field [kHomepage] (orNull text) none m = some i.homepage ∧
      field [kKeywords] (list text) [] m = some i.keywords ∧
      field [kBin] (orNull readBin) none m = some i.bin := by
  cases v with
  | obj m =>
    simp only [readInfo, Option.bind_eq_bind, Option.bind_eq_some_iff, Option.pure_def, Option.some.injEq] at h
    obtain ⟨a1, h1, a2, h2, a3, h3, a4, h4, a5, h5, a6, h6, a7, h7, a8, h8, a9, h9, a10, h10, a11, h11, rfl⟩ := h
    exact ⟨m, rfl, h1, h2, ⟨a3, h3⟩, h4, h5, h6, h7, h8, h9, h10, h11⟩
  | _ => cases h

theorem field_weaken {α β : Type} {names : List Str} {read : Json → Option α} {read' : Json → Option β} {f : α → β} {d : α}
    {m : List (Str × Json)} {x : α} (hf : ∀ v x, read v = some x → read' v = some (f x)) (h : field names read d m = some x) :
    field names read' (f d) m = some (f x) := by
  unfold field at h ⊢
  split at h
  · cases h; rfl
  · exact hf _ _ h
  · cases h

theorem fullDist_dist {url : Str → Option Str} {size : Json → Option Nat} {v : Json} {x : CDist × Option Nat}
    (h : readFullDist url size v = some x) : readDist url v = some x.1 := by
  cases v with
  | obj m =>
    simp only [readFullDist, Option.bind_eq_bind, Option.bind_eq_some_iff, Option.pure_def, Option.some.injEq] at h
    obtain ⟨d, h1, _, _, u, _, rfl⟩ := h
    exact h1
  | _ => cases h

/-- C83: what is shown of a version is what the registry's answer says of it. -/
theorem C83_reads (parseV : Str → Option V) (url : Str → Option Str) (size : Json → Option Nat) (v : Json) (i : Info V)
    (h : readInfo parseV url size v = some i) : InfoAs parseV url v i := by
  obtain ⟨m, rfl, h1, h2, _, h4, h5, h6, h7, h8, h9, h10, h11⟩ := info_parts h
  refine ⟨m, rfl, (C79_manifest parseV m _).1 (full_manifest h1), ?_, (field_iff deprecation_iff _ _ _).1 h4,
    (field_iff (list_iff person_iff) _ _ _).1 h5, (field_iff (orNull_iff user_iff) _ _ _).1 h6,
    (field_iff (orNull_iff text_iff) _ _ _).1 h7, (field_iff (orNull_iff text_iff) _ _ _).1 h8,
    (field_iff (orNull_iff text_iff) _ _ _).1 h9, (field_iff (list_iff text_iff) _ _ _).1 h10,
    (field_iff (orNull_iff bin_iff) _ _ _).1 h11⟩
  exact (field_iff (dist_iff url) _ _ _).1 (field_weaken (f := Prod.fst) (fun v x => fullDist_dist) h2)

theorem entries_weaken {K α β : Type} {key : Str → Option K} {read : Json → Option α} {read' : Json → Option β} {f : α → β}
    (hf : ∀ v x, read v = some x → read' v = some (f x)) : ∀ {m : List (Str × Json)} {l : List (K × α)},
    entries key read m = some l → entries key read' m = some (l.map fun e => (e.1, f e.2))
  | [], l, h => by cases h; rfl
  | (k, v) :: m, l, h => by
    unfold entries at h ⊢
    cases hk : key k with
    | none => simp only [hk] at h; cases h
    | some a =>
      cases hv : read v with
      | none => simp only [hk, hv] at h; cases h
      | some x =>
        cases hm : entries key read m with
        | none => simp only [hk, hv, hm] at h; cases h
        | some r =>
          simp only [hk, hv, hm, Option.some.injEq] at h
          subst h
          simp only [hf _ _ hv, entries_weaken hf hm, List.map_cons]

theorem ofList_map {K α β : Type} [DecidableEq K] (f : α → β) (l : List (K × α)) :
    IMap.ofList (l.map fun e => (e.1, f e.2)) = (IMap.ofList l).map fun e => (e.1, f e.2) := by
  have hins : ∀ (m : IMap K α) (k : K) (x : α), IMap.insert (m.map fun e => (e.1, f e.2)) k (f x) =
      (IMap.insert m k x).map fun e => (e.1, f e.2) := by
    intro m k x
    induction m with
    | nil => rfl
    | cons a m ih =>
      by_cases h : a.1 = k
      · simp [IMap.insert, h]
      · simp [IMap.insert, h, ih]
  unfold IMap.ofList
  suffices ∀ (m : IMap K α), (l.map fun e => (e.1, f e.2)).foldl (fun m kv => IMap.insert m kv.1 kv.2) (m.map fun e => (e.1, f e.2)) =
      (l.foldl (fun m kv => IMap.insert m kv.1 kv.2) m).map fun e => (e.1, f e.2) from this []
  induction l with
  | nil => intro m; rfl
  | cons a l ih =>
    intro m
    simp only [List.map_cons, List.foldl_cons]
    rw [hins, ih]

/-- the reduced form of what is shown -/
def Info.reduced (i : Info V) (shrinkwrap : Option Bool) : CVersion V Bundled Deprecation := ⟨i.dist, shrinkwrap, i.manifest, i.deprecated⟩

/-- the entry of a version that can be shown can also be read for an install, and says the same -/
theorem readVersion_of_info {parseV : Str → Option V} {url : Str → Option Str} {size : Json → Option Nat} {v : Json} {i : Info V}
    (h : readInfo parseV url size v = some i) : ∃ s, Docs.readVersion parseV url v = some (i.reduced s) := by
  obtain ⟨m, rfl, h1, h2, ⟨s, h3⟩, h4, _⟩ := info_parts h
  have h2' := field_weaken (f := Prod.fst) (fun v x => fullDist_dist) h2
  refine ⟨s, ?_⟩
  simp only [Docs.readVersion, Option.bind_eq_bind, Option.bind_eq_some_iff, Option.pure_def]
  exact ⟨_, h2', _, h3, _, h4, _, full_manifest h1, rfl⟩

/-- C83: what is shown is what an install would use: from an answer that can be shown, the reader used for installs gets the
same versions, with the same names, requirements, archives and deprecations. -/
theorem C83_as_installed (parseV : Str → Option V) (url : Str → Option Str) (size : Json → Option Nat) (answer : Json) (d : Doc V)
    (h : readDoc parseV url size answer = some d) : ∃ p, readPackument parseV url answer = some p ∧
      (∀ v, p.versions.get? v = none ↔ d.versions.get? v = none) ∧
      ∀ v i, d.versions.get? v = some i → ∃ x, p.versions.get? v = some x ∧ x.manifest = i.manifest ∧ x.dist = i.dist ∧
        x.deprecated = i.deprecated := by
  cases answer with
  | obj m =>
    simp only [readDoc, Option.bind_eq_bind, Option.bind_eq_some_iff, Option.pure_def, Option.some.injEq] at h
    obtain ⟨vs, h1, t, _, tags, h3, rfl⟩ := h
    -- a reader of entries for both
    let both : Json → Option (Info V × CVersion V Bundled Deprecation) := fun v =>
      (readInfo parseV url size v).bind fun i => (Docs.readVersion parseV url v).map fun x => (i, x)
    have hw : ∀ v i, readInfo parseV url size v = some i → ∃ s, both v = some (i, i.reduced s) := by
      intro v i hi
      obtain ⟨s, hs⟩ := readVersion_of_info hi
      exact ⟨s, by simp [both, hi, hs]⟩
    have hb : ∀ (l : List (Str × Json)) (r : List (V × Info V)), entries parseV (readInfo parseV url size) l = some r →
        ∃ r', entries parseV both l = some r' ∧ (∀ e ∈ r', ∃ s, e.2.2 = e.2.1.reduced s) := by
      intro l
      induction l with
      | nil => intro r hr; exact ⟨[], rfl, by simp⟩
      | cons e l ih =>
        intro r hr
        obtain ⟨k, v⟩ := e
        unfold entries at hr ⊢
        cases hk : parseV k with
        | none => simp only [hk] at hr; cases hr
        | some a =>
          cases hv : readInfo parseV url size v with
          | none => simp only [hk, hv] at hr; cases hr
          | some x =>
            cases hm : entries parseV (readInfo parseV url size) l with
            | none => simp only [hk, hv, hm] at hr; cases hr
            | some q =>
              obtain ⟨q', h1, h2⟩ := ih q hm
              obtain ⟨s, hs⟩ := hw v x hv
              refine ⟨(a, (x, x.reduced s)) :: q', by simp only [hs, h1], ?_⟩
              intro e he
              rcases List.mem_cons.1 he with rfl | he
              · exact ⟨s, rfl⟩
              · exact h2 e he
    have key : ∃ t : IMap V (Info V × CVersion V Bundled Deprecation), vs = t.map (fun e => (e.1, e.2.1)) ∧
        field [kVersions] (table parseV (Docs.readVersion parseV url)) [] m = some (t.map fun e => (e.1, e.2.2)) ∧
        ∀ k x, t.get? k = some x → ∃ s, x.2 = x.1.reduced s := by
      unfold field at h1 ⊢
      split at h1
      · cases h1; exact ⟨[], rfl, rfl, fun k x hx => by cases hx⟩
      · rename_i e _
        obtain ⟨k, v⟩ := e
        cases v with
        | obj l =>
          simp only [table, Option.map_eq_some_iff] at h1
          obtain ⟨r, hr, rfl⟩ := h1
          obtain ⟨r', hr', hs⟩ := hb l r hr
          have e1 := entries_weaken (read' := readInfo parseV url size) (f := Prod.fst) (fun v x hx => by
            simp only [both, Option.bind_eq_some_iff, Option.map_eq_some_iff] at hx
            obtain ⟨i, hi, y, _, rfl⟩ := hx
            exact hi) hr'
          have e2 := entries_weaken (read' := Docs.readVersion parseV url) (f := Prod.snd) (fun v x hx => by
            simp only [both, Option.bind_eq_some_iff, Option.map_eq_some_iff] at hx
            obtain ⟨i, _, y, hy, rfl⟩ := hx
            exact hy) hr'
          rw [hr] at e1
          cases e1
          refine ⟨IMap.ofList r', ofList_map Prod.fst r', ?_, ?_⟩
          · simp only [table, e2, Option.map_some, ofList_map Prod.snd r']
          · intro k x hx
            have hmem : ∀ (l : List (V × (Info V × CVersion V Bundled Deprecation))) (m0 : IMap V (Info V × CVersion V Bundled Deprecation)),
                (∀ e ∈ l, ∃ s, e.2.2 = e.2.1.reduced s) → (∀ e ∈ m0, ∃ s, e.2.2 = e.2.1.reduced s) →
                ∀ e ∈ l.foldl (fun m kv => IMap.insert m kv.1 kv.2) m0, ∃ s, e.2.2 = e.2.1.reduced s := by
              intro l
              induction l with
              | nil => intro m0 _ h; exact h
              | cons a l ih =>
                intro m0 h1 h2
                rw [List.foldl_cons]
                refine ih _ (fun e he => h1 e (List.mem_cons_of_mem _ he)) fun e he => ?_
                rcases IMap.mem_insert he with he | he
                · rw [he]; exact h1 a List.mem_cons_self
                · exact h2 e he
            exact hmem r' [] hs (by simp) _ (IMap.mem_of_get? hx)
        | _ => cases h1
      · cases h1
    obtain ⟨t, rfl, ht, hs⟩ := key
    refine ⟨⟨t.map fun e => (e.1, e.2.2), tags⟩, ?_, ?_, ?_⟩
    · simp only [readPackument, ht, h3, Option.bind_eq_bind, Option.bind_some, Option.pure_def]
    · intro v
      show IMap.get? (t.map fun e => (e.1, e.2.2)) v = none ↔ IMap.get? (t.map fun e => (e.1, e.2.1)) v = none
      rw [IMap.get?_map Prod.snd, IMap.get?_map Prod.fst]
      simp
    · intro v i hi
      have hi' : IMap.get? (t.map fun e => (e.1, e.2.1)) v = some i := hi
      rw [IMap.get?_map Prod.fst, Option.map_eq_some_iff] at hi'
      obtain ⟨x, hx, rfl⟩ := hi'
      obtain ⟨s, hx2⟩ := hs v x hx
      refine ⟨x.2, ?_, ?_, ?_, ?_⟩
      · show IMap.get? (t.map fun e => (e.1, e.2.2)) v = some x.2
        rw [IMap.get?_map Prod.snd, hx]; rfl
      all_goals rw [hx2]; rfl
  | _ => cases h

/-! ### printing -/

variable (E : Env V)

/-- C83: the command succeeds exactly if the version is there and, in case the registry says who published it and when, the
time can be read. -/
theorem C83_succeeds (doc : Doc V) (wanted : V) : (view E doc wanted).2 = true ↔
    ∃ i, doc.versions.get? wanted = some i ∧
      ∀ t u, doc.time.get? (versionText E i) = some t → i.user = some u → E.age t ≠ none := by
  unfold view
  cases doc.versions.get? wanted with
  | none => simp
  | some i =>
    simp only [Option.some.injEq, exists_eq_left']
    unfold published
    cases doc.time.get? (versionText E i) with
    | none => simp
    | some t =>
      cases i.user with
      | none => simp
      | some u =>
        cases h : E.age t <;> simp [h]

/-- what is printed for a version that is there begins with all but the last line -/
theorem view_body {doc : Doc V} {wanted : V} {i : Info V} (h : doc.versions.get? wanted = some i) :
    ∃ p, (view E doc wanted).1 = body E i doc.versions.length ++ p := by
  unfold view
  rw [h]
  cases hp : published E i doc.time with
  | none => exact ⟨[], by simp only [hp, List.append_nil]⟩
  | some p => exact ⟨p, by simp only [hp]⟩

/-- C83: the first line. -/
theorem C83_header {doc : Doc V} {wanted v : V} {i : Info V} {n l : Str} (h : doc.versions.get? wanted = some i)
    (hn : i.manifest.name = some n) (hv : i.manifest.version = some v) (hl : i.license = some l) :
    FirstLine (view E doc wanted).1 (n ++ '@' :: E.showV v ++ " | ".toList ++ l ++ " | deps: ".toList ++
      Nat.toDigits 10 i.manifest.dependencies.length ++ " | releases: ".toList ++ Nat.toDigits 10 doc.versions.length) := by
  obtain ⟨p, hp⟩ := view_body E h
  refine ⟨about i ++ deprecation i ++ keywords i ++ bins E i ++ distribution E i ++
    dependencies E i.manifest.dependencies ++ maintainers i ++ p, ?_⟩
  rw [hp]
  simp only [body, header, hn, hv, hl, versionText, Option.getD_some, num, ln, List.append_assoc, List.cons_append, List.nil_append]

/-- C83: of the archive, its address, its checksums and its size are shown where they are known. -/
theorem C83_dist {doc : Doc V} {wanted : V} {i : Info V} (h : doc.versions.get? wanted = some i) :
    (∀ t, i.dist.tarball = some t → Prints (view E doc wanted).1 (".tarball: ".toList ++ t ++ ['\n'])) ∧
    (∀ t, i.dist.shasum = some t → Prints (view E doc wanted).1 (".shasum: ".toList ++ t ++ ['\n'])) ∧
    (∀ t, i.dist.integrity = some t → Prints (view E doc wanted).1 (".integrity: ".toList ++ t ++ ['\n'])) ∧
    (∀ n, i.unpacked = some n → Prints (view E doc wanted).1 (".unpackedSize: ".toList ++ E.human n ++ ['\n'])) := by
  obtain ⟨p, hp⟩ := view_body E h
  have key : ∀ part, Prints (distribution E i) part → Prints (view E doc wanted).1 part := by
    rintro part ⟨a, b, he⟩
    refine ⟨header E i doc.versions.length ++ about i ++ deprecation i ++ keywords i ++ bins E i ++ a,
      b ++ dependencies E i.manifest.dependencies ++ maintainers i ++ p, ?_⟩
    rw [hp, body, he]
    simp only [List.append_assoc]
  refine ⟨fun t ht => key _ ?_, fun t ht => key _ ?_, fun t ht => key _ ?_, fun n hn => key _ ?_⟩
  · refine ⟨ln "dist".toList, shown i.dist.shasum (fun t => ln (".shasum: ".toList ++ t)) ++
      shown i.dist.integrity (fun t => ln (".integrity: ".toList ++ t)) ++
      shown i.unpacked (fun n => ln (".unpackedSize: ".toList ++ E.human n)) ++ ln [], ?_⟩
    simp only [distribution, ht, shown, ln, List.append_assoc]
  · refine ⟨ln "dist".toList ++ shown i.dist.tarball (fun t => ln (".tarball: ".toList ++ t)),
      shown i.dist.integrity (fun t => ln (".integrity: ".toList ++ t)) ++
      shown i.unpacked (fun n => ln (".unpackedSize: ".toList ++ E.human n)) ++ ln [], ?_⟩
    simp only [distribution, ht, shown, ln, List.append_assoc]
  · refine ⟨ln "dist".toList ++ shown i.dist.tarball (fun t => ln (".tarball: ".toList ++ t)) ++
      shown i.dist.shasum (fun t => ln (".shasum: ".toList ++ t)),
      shown i.unpacked (fun n => ln (".unpackedSize: ".toList ++ E.human n)) ++ ln [], ?_⟩
    simp only [distribution, ht, shown, ln, List.append_assoc]
  · refine ⟨ln "dist".toList ++ shown i.dist.tarball (fun t => ln (".tarball: ".toList ++ t)) ++
      shown i.dist.shasum (fun t => ln (".shasum: ".toList ++ t)) ++
      shown i.dist.integrity (fun t => ln (".integrity: ".toList ++ t)), ln [], ?_⟩
    simp only [distribution, hn, shown, ln, List.append_assoc]

/-- a deprecated version is marked as such, with the reason if there is one -/
theorem C83_deprecated {doc : Doc V} {wanted : V} {i : Info V} (h : doc.versions.get? wanted = some i) :
    (∀ msg, i.deprecated = some (some msg) → Prints (view E doc wanted).1 ("DEPRECATED ".toList ++ msg ++ ['\n', '\n'])) ∧
    (i.deprecated = some none → Prints (view E doc wanted).1 ("DEPRECATED".toList ++ ['\n', '\n'])) := by
  obtain ⟨p, hp⟩ := view_body E h
  have key : ∀ part, deprecation i = part → Prints (view E doc wanted).1 part := by
    rintro part rfl
    refine ⟨header E i doc.versions.length ++ about i, keywords i ++ bins E i ++ distribution E i ++
      dependencies E i.manifest.dependencies ++ maintainers i ++ p, ?_⟩
    rw [hp, body]
    simp only [List.append_assoc]
  refine ⟨fun msg hm => key _ ?_, fun hm => key _ ?_⟩
  · simp only [deprecation, hm, shown, ln, List.append_assoc, List.cons_append, List.nil_append]
  · simp only [deprecation, hm, shown, ln, List.append_assoc, List.cons_append, List.nil_append]

/-- C83: description, homepage and keywords are shown where they are known, and every maintainer. -/
theorem C83_about {doc : Doc V} {wanted : V} {i : Info V} (h : doc.versions.get? wanted = some i) :
    (∀ t, i.description = some t → Prints (view E doc wanted).1 (t ++ ['\n'])) ∧
    (∀ t, i.homepage = some t → Prints (view E doc wanted).1 (t ++ ['\n', '\n'])) ∧
    (i.keywords ≠ [] → Prints (view E doc wanted).1 ("keywords: ".toList ++ List.intercalate [',', ' '] i.keywords ++ ['\n', '\n'])) ∧
    (∀ s, .str s ∈ i.maintainers → Prints (view E doc wanted).1 ("\n- ".toList ++ s ++ ['\n'])) ∧
    (∀ n e, .obj (some n) (some e) none ∈ i.maintainers →
      Prints (view E doc wanted).1 ("\n- ".toList ++ n ++ " <".toList ++ e ++ ['>', '\n'])) := by
  obtain ⟨p, hp⟩ := view_body E h
  have hm : ∀ x ∈ i.maintainers, Prints (view E doc wanted).1 ('\n' :: person x) := by
    intro x hx
    obtain ⟨l1, l2, he⟩ := List.append_of_mem hx
    have hend : ∃ a, ln "maintainers:".toList ++ l1.flatMap person = a ++ ['\n'] := by
      have hlast : ∀ (l : List Person) (q : Str), ∃ a, (ln q) ++ l.flatMap person = a ++ ['\n'] := by
        intro l
        induction l with
        | nil => intro q; exact ⟨q, by simp [ln]⟩
        | cons y l ih =>
          intro q
          have : ∃ z, person y = ln z := by cases y <;> exact ⟨_, rfl⟩
          obtain ⟨z, hz⟩ := this
          obtain ⟨a, ha⟩ := ih z
          refine ⟨ln q ++ a, ?_⟩
          rw [List.flatMap_cons, hz, List.append_assoc, ha]
      exact hlast l1 _
    obtain ⟨a, ha⟩ := hend
    refine ⟨header E i doc.versions.length ++ about i ++ deprecation i ++ keywords i ++ bins E i ++ distribution E i ++
      dependencies E i.manifest.dependencies ++ a, l2.flatMap person ++ ln [] ++ p, ?_⟩
    have hne : i.maintainers.isEmpty = false := by rw [he]; simp
    rw [hp, body, maintainers, hne, he, List.flatMap_append, List.flatMap_cons]
    simp only [Bool.false_eq_true, if_false]
    rw [← List.append_assoc (ln "maintainers:".toList), ha]
    simp only [List.append_assoc, List.cons_append, List.nil_append]
  refine ⟨fun t ht => ?_, fun t ht => ?_, fun hk => ?_, fun s hs => ?_, fun n e hn => ?_⟩
  · refine ⟨header E i doc.versions.length, shown i.homepage ln ++ ln [] ++ deprecation i ++ keywords i ++ bins E i ++ distribution E i ++
      dependencies E i.manifest.dependencies ++ maintainers i ++ p, ?_⟩
    rw [hp, body, about, ht]
    simp only [shown, ln, List.append_assoc]
  · refine ⟨header E i doc.versions.length ++ shown i.description ln, deprecation i ++ keywords i ++ bins E i ++ distribution E i ++
      dependencies E i.manifest.dependencies ++ maintainers i ++ p, ?_⟩
    rw [hp, body, about, ht]
    simp only [shown, ln, List.append_assoc, List.cons_append, List.nil_append]
  · refine ⟨header E i doc.versions.length ++ about i ++ deprecation i, bins E i ++ distribution E i ++
      dependencies E i.manifest.dependencies ++ maintainers i ++ p, ?_⟩
    rw [hp, body, keywords, if_neg (by simpa using hk)]
    simp only [commas, ln, List.append_assoc, List.cons_append, List.nil_append]
  · have := hm _ hs
    have e : "\n- ".toList = '\n' :: "- ".toList := rfl
    rw [e]
    simpa only [person, ln, List.cons_append, List.append_assoc] using this
  · have := hm _ hn
    have e1 : "\n- ".toList = ['\n', '-', ' '] := rfl
    rw [e1]
    simpa only [person, ln, shown, List.cons_append, List.append_assoc, List.nil_append, List.append_nil] using this

/-- C83: and, at the end, who published it and how long ago. -/
theorem C83_published {doc : Doc V} {wanted : V} {i : Info V} {t ago n : Str} {e : Option Str} (h : doc.versions.get? wanted = some i)
    (hu : i.user = some (n, e)) (ht : doc.time.get? (versionText E i) = some t) (ha : E.age t = some ago) :
    ∃ a, (view E doc wanted).1 = a ++ "published ".toList ++ ago ++ " by ".toList ++ n ++
      (match e with | some e => " <".toList ++ e ++ ['>'] | none => []) ++ ['\n'] := by
  refine ⟨body E i doc.versions.length, ?_⟩
  have hp : published E i doc.time = some (ln ("published ".toList ++ ago ++ " by ".toList ++ n ++ shown e fun e => " <".toList ++ e ++ ['>'])) := by
    unfold published
    rw [hu, ht]
    simp only [ha, Option.map_some]
  unfold view
  rw [h]
  simp only [hp, ln, List.append_assoc]
  cases e <;> rfl

/-- the part about commands -/
theorem bins_printed {doc : Doc V} {wanted : V} {i : Info V} {b : Bins.Bin} (h : doc.versions.get? wanted = some i) (hb : i.bin = some b) :
    Prints (view E doc wanted).1 ("bins: ".toList ++ List.intercalate [',', ' '] (binNames E i b) ++ ['\n', '\n']) := by
  obtain ⟨p, hp⟩ := view_body E h
  refine ⟨header E i doc.versions.length ++ about i ++ deprecation i ++ keywords i, distribution E i ++
      dependencies E i.manifest.dependencies ++ maintainers i ++ p, ?_⟩
  rw [hp, body]
  simp only [bins, hb, shown, ln, commas, List.append_assoc, List.cons_append, List.nil_append]

/-- C83: the commands shown are those that an install makes, for packages whose commands have plain names (in particular a
package with `"bin": "path"` must not be scoped) and are given by `bin`. -/
theorem C83_commands_partial (ho : ∀ m, (E.ord m).Perm m) (disk : Bins.Disk) (cwd : Loc) (dirBin : Option Str) {doc : Doc V}
    {wanted : V} {i : Info V} {b : Bins.Bin} (h : doc.versions.get? wanted = some i) (hb : i.bin = some b)
    (hm : ∀ m, b = .hash m → m.WF) {cmds : IMap Str (List Comp)} (hi : Installs E.ord disk cwd dirBin i cmds)
    (hplain : ∀ n p, Bins.Declares disk cwd ⟨i.manifest.name, i.bin, dirBin⟩ n p → Bins.baseName n = some n ∧ Bins.target p ≠ [])
    (hname : i.manifest.name ≠ none) :
    ∃ names, Prints (view E doc wanted).1 ("bins: ".toList ++ List.intercalate [',', ' '] names ++ ['\n', '\n']) ∧
      ∀ n, n ∈ names ↔ (cmds.get? n).isSome := by
  refine ⟨_, bins_printed E h hb, fun n => ?_⟩
  have hC := Bins.C72_commands_partial E.ord ho disk cwd cwd ⟨i.manifest.name, i.bin, dirBin⟩ (by rw [hb]; intro h; cases h)
    (fun m hm' => hm m (by rw [hb] at hm'; cases hm'; rfl))
  unfold Installs at hi
  rw [hi] at hC
  obtain ⟨h1, h2⟩ := hC
  have hn : n ∈ binNames E i b ↔ ∃ p, Bins.Declares disk cwd ⟨i.manifest.name, i.bin, dirBin⟩ n p := by
    cases b with
    | str p =>
      obtain ⟨nm, hnm⟩ := Option.ne_none_iff_exists'.1 hname
      simp only [binNames, hnm, Option.getD_some, List.mem_singleton]
      constructor
      · rintro rfl
        exact ⟨p, .str hb rfl⟩
      · rintro ⟨q, hd⟩
        cases hd with
        | hash hx _ => rw [hb] at hx; cases hx
        | str hx hy => cases hy; rfl
        | array hx _ _ => rw [hb] at hx; cases hx
        | folder hx _ _ _ _ => rw [hb] at hx; cases hx
    | hash m =>
      simp only [binNames, List.mem_map]
      constructor
      · rintro ⟨e, he, rfl⟩
        exact ⟨e.2, .hash hb ((ho m).mem_iff.1 he)⟩
      · rintro ⟨q, hd⟩
        cases hd with
        | hash hx hy => rw [hb] at hx; cases hx; exact ⟨_, (ho m).mem_iff.2 hy, rfl⟩
        | str hx hy => rw [hb] at hx; cases hx
        | array hx _ _ => rw [hb] at hx; cases hx
        | folder hx _ _ _ _ => rw [hb] at hx; cases hx
    | array l =>
      simp only [binNames, List.mem_filterMap]
      constructor
      · rintro ⟨p, hp, hq⟩
        exact ⟨p, .array hb hp hq⟩
      · rintro ⟨q, hd⟩
        cases hd with
        | hash hx hy => rw [hb] at hx; cases hx
        | str hx hy => rw [hb] at hx; cases hx
        | array hx hy hz => rw [hb] at hx; cases hx; exact ⟨_, hy, hz⟩
        | folder hx _ _ _ _ => rw [hb] at hx; cases hx
  rw [hn]
  constructor
  · rintro ⟨p, hd⟩
    exact h1 n p n hd (hplain n p hd).1 (hplain n p hd).2
  · intro hs
    obtain ⟨t, ht⟩ := Option.isSome_iff_exists.1 hs
    obtain ⟨n', p, hd, hbn, _⟩ := h2 n t ht
    rw [(hplain n' p hd).1] at hbn
    cases hbn
    exact ⟨p, hd⟩

/-! ### names of commands -/

theorem piece_plain {n : Str} (h1 : n ≠ []) (h2 : n ≠ ['.']) (h3 : n ≠ ['.', '.']) : RPath.piece n = some (.normal n) := by
  unfold RPath.piece
  split <;> simp_all

theorem components_last {p : Str} {l : List Str} {n : Str} (hp : p.head? ≠ some '/') (hs : PSpec.splitChar '/' p = l ++ [n])
    (hl : l = [] → n ≠ ['.']) (h : RPath.piece n = some (.normal n)) : RPath.fileName p = some n := by
  have hc : (RPath.components p).getLast? = some (.normal n) := by
    unfold RPath.components
    split
    · exact absurd rfl hp
    · rw [hs]
      split
      · rename_i rest he
        cases l with
        | nil => cases he; exact absurd rfl (hl rfl)
        | cons a l =>
          simp only [List.cons_append, List.cons.injEq] at he
          have e : [n].filterMap RPath.piece = [.normal n] := by simp [h]
          rw [← he.2, List.filterMap_append, e, ← List.cons_append, List.getLast?_append]
          rfl
      · rw [List.filterMap_append]
        simp [h]
  unfold RPath.fileName
  rw [hc]

theorem fileName_two {a n : Str} (ha : '/' ∉ a) (ha1 : a ≠ []) (hn : '/' ∉ n) (h1 : n ≠ []) (h2 : n ≠ ['.']) (h3 : n ≠ ['.', '.']) :
    RPath.fileName (a ++ '/' :: n) = some n := by
  refine components_last (l := [a]) ?_ (PSpec.splitChar_two ha hn) (by simp) (piece_plain h1 h2 h3)
  cases a with
  | nil => exact absurd rfl ha1
  | cons c a => simp only [List.cons_append, List.head?_cons, ne_eq, Option.some.injEq]; rintro rfl; simp at ha

theorem fileName_one {n : Str} (hn : '/' ∉ n) (h1 : n ≠ []) (h2 : n ≠ ['.']) (h3 : n ≠ ['.', '.']) : RPath.fileName n = some n := by
  refine components_last (l := []) ?_ (splitChar_one hn) (fun _ => h2) (piece_plain h1 h2 h3)
  cases n with
  | nil => simp
  | cons c a => simp only [List.head?_cons, ne_eq, Option.some.injEq]; rintro rfl; simp at hn

theorem unify_plain {n : Str} (h1 : '\\' ∉ n) (h2 : ':' ∉ n) : Bins.unify n = n := by
  unfold Bins.unify
  induction n with
  | nil => rfl
  | cons c n ih =>
    simp only [List.mem_cons, not_or] at h1 h2
    rw [List.map_cons, ih h1.2 h2.2, if_neg]
    rintro (h | h)
    · exact h1.1 h.symm
    · exact h2.1 h.symm

/-- **C83 fails** for scoped packages with `"bin": "path"`: the command is shown with the package's whole name, but an install
makes one called by the part after the slash. -/
theorem C83_scoped_fails (ho : ∀ m, (E.ord m).Perm m) (disk : Bins.Disk) (cwd : Loc) (dirBin : Option Str) {doc : Doc V}
    {wanted : V} {i : Info V} {s n p : Str} (h : doc.versions.get? wanted = some i) (hb : i.bin = some (.str p))
    (hname : i.manifest.name = some ('@' :: s ++ '/' :: n)) (hs : '/' ∉ s) (hn : '/' ∉ n) (h1 : n ≠ []) (h2 : n ≠ ['.']) (h3 : n ≠ ['.', '.'])
    (h4 : '\\' ∉ n) (h5 : ':' ∉ n) (ht : Bins.target p ≠ []) :
    Prints (view E doc wanted).1 ("bins: @".toList ++ s ++ '/' :: n ++ ['\n', '\n']) ∧
    ∃ cmds, Installs E.ord disk cwd dirBin i cmds ∧ ∀ c, (cmds.get? c).isSome ↔ c = n := by
  have hbase : Bins.baseName ('@' :: s ++ '/' :: n) = some n := by
    unfold Bins.baseName
    rw [fileName_two (a := '@' :: s) (by simp [hs]) (by simp) hn h1 h2 h3]
    simp only
    rw [unify_plain h4 h5, fileName_one hn h1 h2 h3]
  have hC := Bins.C72_commands_partial E.ord ho disk cwd cwd ⟨i.manifest.name, i.bin, dirBin⟩ (by rw [hb]; intro h; cases h)
    (fun m hm' => by rw [hb] at hm'; cases hm')
  constructor
  · have := bins_printed E h hb
    simp only [binNames, hname, Option.getD_some, List.intercalate, List.intersperse, List.flatten_cons, List.flatten_nil,
      List.append_nil] at this
    have e : "bins: @".toList = "bins: ".toList ++ ['@'] := rfl
    rw [e]
    simpa only [List.append_assoc, List.cons_append, List.nil_append] using this
  · cases hno : Bins.normalize E.ord disk cwd ⟨i.manifest.name, i.bin, dirBin⟩ with
    | none =>
      rw [hno] at hC
      obtain ⟨l, hl, _⟩ := hC
      simp only [hb] at hl; cases hl
    | some cmds =>
      rw [hno] at hC
      refine ⟨cmds, hno, fun c => ⟨fun hc => ?_, ?_⟩⟩
      · obtain ⟨t, hc⟩ := Option.isSome_iff_exists.1 hc
        obtain ⟨n', p', hd, hbn, _⟩ := hC.2 c t hc
        cases hd with
        | hash hx _ => simp only [hb] at hx; cases hx
        | str hx hy => simp only [hname] at hy; cases hy; rw [hbase] at hbn; cases hbn; rfl
        | array hx _ _ => simp only [hb] at hx; cases hx
        | folder hx _ _ _ _ => simp only [hb] at hx; cases hx
      · rintro rfl
        exact hC.1 _ p _ (.str hb hname) hbase ht

/-! ### dependencies -/

/-- C83: when the table fits the terminal, the first 25 dependencies in the order of their names are shown with their
requirements, and the number of the others. -/
theorem C83_dependencies_partial {doc : Doc V} {wanted : V} {i : Info V} (h : doc.versions.get? wanted = some i)
    (hne : i.manifest.dependencies ≠ []) (hfit : ∀ l, (∀ c ∈ l, ∃ d ∈ i.manifest.dependencies, c = d.1 ++ ": ".toList ++ d.2) →
      l.length ≤ 25 → E.fit l E.width ≠ none) :
    ∃ listed others out, (listed ++ others).Perm i.manifest.dependencies ∧ listed.length = min 25 i.manifest.dependencies.length ∧
      listed.Pairwise (fun a b => strLe a.1 b.1 = true) ∧ (∀ a ∈ listed, ∀ b ∈ others, strLe a.1 b.1 = true) ∧
      E.fit (listed.map fun d => d.1 ++ ": ".toList ++ d.2) E.width = some out ∧
      Prints (view E doc wanted).1 ("dependencies:\n".toList ++ out ++
        (if others = [] then [] else "(...and ".toList ++ Nat.toDigits 10 others.length ++ " more)\n".toList) ++ ['\n']) := by
  obtain ⟨p, hp⟩ := view_body E h
  generalize hd : i.manifest.dependencies = deps at *
  have hperm := sortBy_perm (fun a b : Str × Str => strLe a.1 b.1) deps
  have hsort := sortBy_sorted (le := fun a b : Str × Str => strLe a.1 b.1) (fun a b => strLe_total _ _) (fun a b c => strLe_trans _ _ _) deps
  generalize hS : sortBy (fun a b : Str × Str => strLe a.1 b.1) deps = S at *
  have hlen : S.length = deps.length := hperm.length_eq
  have hcells : cells deps = (S.take 25).map fun d => d.1 ++ ": ".toList ++ d.2 := by unfold cells; rw [hS]; rfl
  have hfit' := hfit (cells deps) (by
    intro c hc
    rw [hcells] at hc
    obtain ⟨d, hd', rfl⟩ := List.mem_map.1 hc
    exact ⟨d, hperm.mem_iff.1 (List.mem_of_mem_take hd'), rfl⟩) (by rw [hcells, List.length_map, List.length_take]; omega)
  obtain ⟨out, hout⟩ := Option.ne_none_iff_exists'.1 hfit'
  refine ⟨S.take 25, S.drop 25, out, by rw [List.take_append_drop]; exact hperm, by rw [List.length_take, hlen], ?_, ?_, by rw [← hcells]; exact hout, ?_⟩
  · exact hsort.sublist (List.take_sublist _ _)
  · rw [← List.take_append_drop 25 S] at hsort
    exact fun a ha b hb => (List.pairwise_append.1 hsort).2.2 a ha b hb
  · refine ⟨header E i doc.versions.length ++ about i ++ deprecation i ++ keywords i ++ bins E i ++ distribution E i, maintainers i ++ p, ?_⟩
    rw [hp, body]
    have : dependencies E i.manifest.dependencies = "dependencies:\n".toList ++ out ++
        (if S.drop 25 = [] then [] else "(...and ".toList ++ Nat.toDigits 10 (S.drop 25).length ++ " more)\n".toList) ++ ['\n'] := by
      have e : " more)\n".toList = " more)".toList ++ ['\n'] := rfl
      rw [hd, dependencies, if_neg (by simpa using hne), hout, e]
      simp only [shown, ln, List.nil_append, List.append_assoc, num, maxDeps, List.length_drop, hlen]
      by_cases hc : deps.length > 25
      · have hn : S.drop 25 ≠ [] := by
          intro hn
          have := congrArg List.length hn
          simp only [List.length_drop, List.length_nil] at this
          omega
        rw [if_pos hc, if_neg hn]
      · have hn : S.drop 25 = [] := List.drop_eq_nil_of_le (by omega)
        rw [if_neg hc, if_pos hn]
    rw [this]
    simp only [List.append_assoc]

/-- **C83 fails** on narrow terminals: when the table does not fit (one long requirement is enough), nothing is said about the
dependencies but their number: other ones with the same number give the same output. -/
theorem C83_narrow_fails (i : Info V) (deps : IMap Str Str) (n : Nat)
    (h1 : E.fit (cells i.manifest.dependencies) E.width = none) (h2 : E.fit (cells deps) E.width = none)
    (hl : deps.length = i.manifest.dependencies.length) :
    body E { i with manifest := { i.manifest with dependencies := deps } } n = body E i n := by
  have hd : dependencies E deps = dependencies E i.manifest.dependencies := by
    unfold dependencies
    rw [h1, h2]
    have : deps.isEmpty = i.manifest.dependencies.isEmpty := by
      cases deps <;> cases hx : i.manifest.dependencies <;> simp_all
    rw [this]
    rfl
  unfold body
  simp only [hd]
  unfold header
  simp only [hl]
  rfl

/-! ### what makes the command fail -/

theorem table_value {K α : Type} [DecidableEq K] {key : Str → Option K} {read : Json → Option α} {o : List (Str × Json)} {t : IMap K α}
    (h : table key read (.obj o) = some t) {k : Str} {v : Json} (hm : (k, v) ∈ o) : ∃ x, read v = some x := by
  simp only [table, Option.map_eq_some_iff] at h
  obtain ⟨l, hl, _⟩ := h
  have : ∀ (o : List (Str × Json)) (l : List (K × α)), entries key read o = some l → (k, v) ∈ o → ∃ x, read v = some x := by
    intro o
    induction o with
    | nil => intro l _ hm; cases hm
    | cons e o ih =>
      intro l hl hm
      obtain ⟨k', v'⟩ := e
      unfold entries at hl
      split at hl
      · rename_i a x r _ hx hr
        rcases List.mem_cons.1 hm with he | hm
        · cases he; exact ⟨x, hx⟩
        · exact ih r hr hm
      · cases hl
  exact this o l hl hm

theorem field_read {α : Type} {names : List Str} {read : Json → Option α} {d x : α} {m : List (Str × Json)}
    (h : field names read d m = some x) {k : Str} {v : Json} (hk : k ∈ names) (hm : (k, v) ∈ m) : read v = some x := by
  exact ((field_iff (M := fun v x => read v = some x) (fun v x => Iff.rfl) d m x).1 h).value hk hm

/-- **C83 fails** for every version of a package one of whose versions gives its license, or a list of workspaces, as a table
(the old form of licenses): nothing is shown. (An install does not read these fields: see `C79_other_fields`.) -/
theorem C83_license_fails (parseV : Str → Option V) (url : Str → Option Str) (size : Json → Option Nat) (wanted : V)
    {m vs o l : List (Str × Json)} {t : Str} (hv : (kVersions, .obj vs) ∈ m) (ht : (t, .obj o) ∈ vs)
    (hl : (kLicense, .obj l) ∈ o ∨ (kWorkspaces, .obj l) ∈ o) :
    command E parseV url size (.obj m) wanted = ([], false) := by
  have : readDoc parseV url size (.obj m) = none := by
    refine none_of fun d hd => ?_
    simp only [readDoc, Option.bind_eq_bind, Option.bind_eq_some_iff, Option.pure_def, Option.some.injEq] at hd
    obtain ⟨t', h1, _⟩ := hd
    obtain ⟨i, hi⟩ := table_value (field_read h1 (by simp) hv) ht
    obtain ⟨m', hm', h2, _⟩ := info_parts hi
    cases hm'
    have := C79_license_fails parseV (some []) hl
    simp only [nameFromPath, h2, Option.bind_some] at this
    cases hn : i.manifest.name <;> simp [hn] at this
  unfold command
  rw [this]

/-- **C83 fails** for every version of a package one of whose versions gives its number of files, or their size, as something that is not
a size (an install does not read these): nothing is shown. -/
theorem C83_sizes_fails (parseV : Str → Option V) (url : Str → Option Str) (size : Json → Option Nat) (wanted : V)
    {m vs o d : List (Str × Json)} {t f : Str} {v : Json} (hv : (kVersions, .obj vs) ∈ m) (ht : (t, .obj o) ∈ vs)
    (hd : (kDist, .obj d) ∈ o) (hf : f = kFileCount ∨ f = kUnpackedSize) (hm : (f, v) ∈ d) (hs : v ≠ .null ∧ size v = none) :
    command E parseV url size (.obj m) wanted = ([], false) := by
  have : readDoc parseV url size (.obj m) = none := by
    refine none_of fun x hx => ?_
    simp only [readDoc, Option.bind_eq_bind, Option.bind_eq_some_iff, Option.pure_def, Option.some.injEq] at hx
    obtain ⟨t', h1, _⟩ := hx
    obtain ⟨i, hi⟩ := table_value (field_read h1 (by simp) hv) ht
    obtain ⟨m', hm', _, h2, _⟩ := info_parts hi
    cases hm'
    have h3 := field_read h2 (by simp) hd
    simp only [readFullDist, Option.bind_eq_bind, Option.bind_eq_some_iff, Option.pure_def, Option.some.injEq] at h3
    obtain ⟨_, _, c, h4, u, h5, _⟩ := h3
    have key : ∀ x, orNull size v = some x → False := by
      intro x hx
      obtain ⟨n1, n2⟩ := hs
      cases v <;> simp_all [orNull]
    rcases hf with rfl | rfl
    · exact key _ (field_read h4 (by simp) hm)
    · exact key _ (field_read h5 (by simp) hm)
  unfold command
  rw [this]

/-- **C83 fails** for every version of a package whose table of times has an entry that is not a text (as registries have for
packages that were unpublished). -/
theorem C83_times_fails (parseV : Str → Option V) (url : Str → Option Str) (size : Json → Option Nat) (wanted : V)
    {m o : List (Str × Json)} {t : Str} {v : Json} (hv : (kTime, .obj o) ∈ m) (ht : (t, v) ∈ o) (hs : ∀ s, v ≠ .str s) :
    command E parseV url size (.obj m) wanted = ([], false) := by
  have : readDoc parseV url size (.obj m) = none := by
    refine none_of fun d hd => ?_
    simp only [readDoc, Option.bind_eq_bind, Option.bind_eq_some_iff, Option.pure_def, Option.some.injEq] at hd
    obtain ⟨_, _, t', h1, _⟩ := hd
    obtain ⟨i, hi⟩ := table_value (field_read h1 (by simp) hv) ht
    cases v <;> simp_all [text]
  unfold command
  rw [this]

theorem fine_other {names : List Str} {ok : Json → Bool} {a b : List (Str × Json)} {k : Str} {v : Json} (hk : k ∉ names) :
    fine names ok (a ++ (k, v) :: b) = fine names ok (a ++ b) := by
  unfold fine; rw [field_other hk]

/-- **C83 fails** for packages with `directories.bin`: what is shown does not depend on it (for what an install does, see
`C72_directories_fails`). -/
theorem C83_directories_fails (parseV : Str → Option V) (url : Str → Option Str) (size : Json → Option Nat) (a b : List (Str × Json))
    (v : Json) : readInfo parseV url size (.obj (a ++ (kDirectories, v) :: b)) = readInfo parseV url size (.obj (a ++ b)) := by
  have h1 : readManifest parseV (a ++ (kDirectories, v) :: b) = readManifest parseV (a ++ b) :=
    (C79_other_fields parseV url a b kDirectories v).1 (by decide)
  have h2 : readFullManifest parseV (a ++ (kDirectories, v) :: b) = readFullManifest parseV (a ++ b) := by
    unfold readFullManifest
    rw [h1]
    repeat rw [fine_other (by decide)]
  unfold readInfo
  dsimp only
  rw [h2]
  repeat rw [field_other (by decide)]

end

/-! ### examples -/

namespace ExV
open Docs.ExD (ver)

def E : Env Str where
  showV v := v
  age t := if t = ['t'] then some ['n', 'o', 'w'] else none
  human := num
  fit l w := if l.all fun c => c.length ≤ w then some (l.flatMap ln) else none
  width := 20
  ord m := m

/-- a version of a package -/
def entry (name : Str) (req : Str) : Json := .obj [(kName, .str name), (kVersion, .str ['1']), (kBin, .str ['x', '.', 'j', 's']),
  (kDependencies, .obj [(['d'], .str req), (['c'], .str ['*'])]), (kDist, .obj [(kTarball, .str ['u']), (kUnpackedSize, .num ['7'])]),
  (kNpmUser, .obj [(kName, .str ['m', 'e'])]), (kDeprecated, .str ['o', 'l', 'd'])]
/-- the size that is written -/
def size : Json → Option Nat
  | .num _ => some 7
  | _ => none
/-- a registry's answer -/
def answer (name req time : Str) : Json := .obj [(kVersions, .obj [(['1'], entry name req)]), (kTime, .obj [(['1'], .str time)])]

/-- what is shown -/
example : command E ver some size (answer ['a'] ['^', '1'] ['t']) ['1'] =
    ("a@1 | Proprietary | deps: 2 | releases: 1\n\nDEPRECATED old\n\nbins: a\n\ndist\n.tarball: u\n.unpackedSize: 7\n\ndependencies:\nc: *\nd: ^1\n\npublished now by me\n".toList,
      true) := by decide +kernel
/-- a date that is not one: the last line is missing, and the command fails -/
example : command E ver some size (answer ['a'] ['^', '1'] ['u']) ['1'] =
    ("a@1 | Proprietary | deps: 2 | releases: 1\n\nDEPRECATED old\n\nbins: a\n\ndist\n.tarball: u\n.unpackedSize: 7\n\ndependencies:\nc: *\nd: ^1\n\n".toList,
      false) := by decide +kernel
/-- a long requirement: the dependencies are not shown -/
example : command E ver some size (answer ['a'] (List.replicate 30 '1') ['t']) ['1'] =
    ("a@1 | Proprietary | deps: 2 | releases: 1\n\nDEPRECATED old\n\nbins: a\n\ndist\n.tarball: u\n.unpackedSize: 7\n\n\npublished now by me\n".toList,
      true) := by decide +kernel
/-- the version that is read -/
def info (name : Str) : Info Str := ⟨⟨some name, some ['1'], [(['d'], ['^', '1']), (['c'], ['*'])], [], [], [], none⟩,
  ⟨none, some ['u'], none, none⟩, some 7, some (some ['o', 'l', 'd']), [], some (['m', 'e'], none), none, none, none, [], some (.str ['x', '.', 'j', 's'])⟩
def doc (name : Str) : Doc Str := ⟨[(['1'], info name)], [(['1'], ['t'])]⟩
theorem reads : readDoc ver some size (answer ['a'] ['^', '1'] ['t']) = some (doc ['a']) := by rfl
/-- `C83_as_installed` and `C83_reads` apply to it -/
example : ∃ p, readPackument ver some (answer ['a'] ['^', '1'] ['t']) = some p ∧ ∃ x, p.versions.get? ['1'] = some x ∧
    x.manifest.dependencies = [(['d'], ['^', '1']), (['c'], ['*'])] := by
  obtain ⟨p, h1, _, h2⟩ := C83_as_installed ver some size _ _ reads
  obtain ⟨x, hx, hm, _⟩ := h2 ['1'] (info ['a']) rfl
  exact ⟨p, h1, x, hx, by rw [hm]; rfl⟩
example : InfoAs ver some (entry ['a'] ['^', '1']) (info ['a']) := C83_reads ver some size _ _ (by rfl)
/-- the command of a package without scope -/
example (disk : Bins.Disk) (cwd : Loc) : ∃ cmds, Installs E.ord disk cwd none (info ['a']) cmds ∧
    ∃ names, Prints (view E (doc ['a']) ['1']).1 ("bins: ".toList ++ List.intercalate [',', ' '] names ++ ['\n', '\n']) ∧
      ∀ n, n ∈ names ↔ (cmds.get? n).isSome := by
  refine ⟨[(['a'], [.normal ['x', '.', 'j', 's']])], rfl, C83_commands_partial E (fun m => .refl _) disk cwd none (i := info ['a']) rfl rfl
    (fun m hm => by cases hm) rfl ?_ (by decide)⟩
  intro n p hd
  cases hd with
  | hash hx _ => cases hx
  | str hx hy => cases hx; cases hy; decide +kernel
  | array hx _ _ => cases hx
  | folder hx _ _ _ _ => cases hx
/-- and of one with a scope -/
example (disk : Bins.Disk) (cwd : Loc) := C83_scoped_fails E (fun m => .refl _) disk cwd none (doc := doc ['@', 's', '/', 'a']) (wanted := ['1'])
  (s := ['s']) (n := ['a']) rfl rfl rfl (by decide) (by decide) (by decide) (by decide) (by decide) (by decide) (by decide) (by decide +kernel)
/-- `C83_dependencies_partial` -/
example := C83_dependencies_partial E (doc := doc ['a']) (wanted := ['1']) rfl (by decide) (by
  intro l hl _ hn
  have : l.all (fun c => c.length ≤ 20) = true := by
    rw [List.all_eq_true]
    intro c hc
    obtain ⟨d, hd, rfl⟩ := hl c hc
    simp only [info, List.mem_cons, List.not_mem_nil, or_false] at hd
    rcases hd with rfl | rfl <;> decide +kernel
  simp only [E, this, if_true] at hn
  cases hn)
/-- an old license in another version -/
example : command E ver some size (.obj [(kVersions, .obj [(['1'], entry ['a'] ['*']), (['0'], .obj [(kLicense, .obj [])])])]) ['1'] = ([], false) :=
  C83_license_fails E ver some size _ List.mem_cons_self (List.mem_cons_of_mem _ List.mem_cons_self) (.inl List.mem_cons_self)
/-- a number of files that is none, in another version -/
example : command E ver some size (.obj [(kVersions, .obj [(['1'], entry ['a'] ['*']), (['0'], .obj [(kDist, .obj [(kFileCount, .str ['x'])])])])]) ['1'] = ([], false) :=
  C83_sizes_fails E ver some size _ List.mem_cons_self (List.mem_cons_of_mem _ List.mem_cons_self) List.mem_cons_self (.inl rfl) List.mem_cons_self ⟨nofun, rfl⟩
end ExV
end View
end Oro
