import Verif.Props.Documents
/- C79: exactly when, and which, name is taken from the package.json of a folder. -/

set_option linter.unusedSectionVars false

namespace Oro
namespace Docs
open Meta (CManifest CDist CVersion CPackument)
variable {V : Type} [DecidableEq V]

theorem fine_iff {names : List Str} {ok : Json → Bool} {P : Json → Prop} (h : ∀ v, ok v = true ↔ P v) (m : List (Str × Json)) :
    fine names ok m = true ↔ Legible names P m := by
  unfold fine
  rw [Option.isSome_iff_exists]
  have key := fun u => field_iff (names := names) (read := fun v => if ok v = true then some () else none) (M := fun v (_ : Unit) => P v) (fun v x => by
    constructor
    · intro hx; split at hx
      · rename_i hv; exact (h v).1 hv
      · cases hx
    · intro hv; rw [if_pos ((h v).2 hv)]) () m u
  constructor
  · rintro ⟨u, hu⟩
    rcases (key u).1 hu with ⟨a, _⟩ | a
    · exact .inl a
    · exact .inr a
  · rintro (a | a)
    · exact ⟨(), (key ()).2 (.inl ⟨a, rfl⟩)⟩
    · exact ⟨(), (key ()).2 (.inr a)⟩

theorem isText_iff (v : Json) : isText v = true ↔ TextOrNull v := by
  cases v <;> simp [isText, orNull, text, TextOrNull]

theorem all_isSome (l : List Json) : (all text l).isSome = true ↔ ∃ r : List Str, l = r.map .str := by
  induction l with
  | nil => simp only [all, Option.isSome_some, true_iff]; exact ⟨[], rfl⟩
  | cons v l ih =>
    cases v with
    | str s =>
      simp only [all, text]
      constructor
      · intro h
        cases hl : all text l with
        | none => rw [hl] at h; cases h
        | some r =>
          obtain ⟨r', hr⟩ := ih.1 (by rw [hl]; rfl)
          exact ⟨s :: r', by rw [hr]; rfl⟩
      · rintro ⟨r, hr⟩
        cases r with
        | nil => cases hr
        | cons a r =>
          simp only [List.map_cons, List.cons.injEq] at hr
          have := ih.2 ⟨r, hr.2⟩
          cases hl : all text l with
          | none => rw [hl] at this; cases this
          | some x => rfl
    | _ =>
      refine ⟨fun h => by simp [all, text] at h, ?_⟩
      rintro ⟨r, hr⟩
      cases r <;> simp at hr

theorem isTexts_iff (v : Json) : isTexts v = true ↔ TextList v := by
  cases v with
  | arr l =>
    simp only [isTexts, list, TextList, Json.arr.injEq]
    exact all_isSome l
  | _ => simp [isTexts, list, TextList]

theorem isTextOr_iff (fields : List Str) (v : Json) : isTextOr fields v = true ↔ TextOrObject fields v := by
  cases v with
  | obj m =>
    simp only [isTextOr, TextOrObject, List.all_eq_true, fine_iff isText_iff]
    constructor
    · intro h; exact .inr ⟨m, rfl, h⟩
    · rintro (⟨s, hs⟩ | ⟨m', hm, h⟩)
      · cases hs
      · cases hm; exact h
  | _ => simp [isTextOr, TextOrObject]

theorem orNull'_iff {ok : Json → Bool} {P : Json → Prop} (h : ∀ v, ok v = true ↔ P v) (v : Json) : orNull' ok v = true ↔ OrNull P v := by
  cases v <;> simp [orNull', OrNull, h]

theorem isPersons_iff (v : Json) : isPersons v = true ↔ ∃ l, v = .arr l ∧ ∀ x ∈ l, TextOrObject [kName, kEmail, kUrl] x := by
  cases v with
  | arr l =>
    simp only [isPersons, List.all_eq_true, isTextOr_iff, Json.arr.injEq]
    constructor
    · intro h; exact ⟨l, rfl, h⟩
    · rintro ⟨l', rfl, h⟩; exact h
  | _ => simp [isPersons]

theorem isMan_iff (v : Json) : isMan v = true ↔ (∃ s, v = .str s) ∨ TextList v := by
  cases v with
  | str s => simp [isMan]
  | _ => simp only [isMan, isTexts_iff]; simp

theorem legible_iff (parseV : Str → Option V) (m : List (Str × Json)) (r : CManifest V Bundled) :
    readFullManifest parseV m = some r ↔ LegibleManifest m ∧ Describes parseV m r := by
  have hbin : ∀ v, (readBin v).isSome = true ↔ ∃ b, BinAs v b := by
    intro v
    rw [Option.isSome_iff_exists]
    exact exists_congr fun b => bin_iff v b
  have hscr : ∀ v, (textTable v).isSome = true ↔ ∃ t, Texts v t := by
    intro v
    rw [Option.isSome_iff_exists]
    exact exists_congr fun b => textTable_iff v b
  have hflag : ∀ v, isFlag v = true ↔ ∃ b, v = .bool b := by intro v; cases v <;> simp [isFlag]
  have hobj : ∀ v, isObject v = true ↔ ∃ o, v = .obj o := by intro v; cases v <;> simp [isObject]
  rw [← readManifest_iff]
  have main : LegibleManifest m ↔ ((((((((((((((((((fine [kDescription] isText m && fine [kHomepage] isText m) && fine [kLicense, kLicence] isText m) &&
      fine [kBugs] (orNull' (isTextOr [kUrl, kEmail])) m) && fine [kKeywords] isTexts m) &&
      fine [kBin] (orNull' fun v => (readBin v).isSome) m) && fine [kAuthor] (orNull' (isTextOr [kName, kEmail, kUrl])) m) &&
      fine [kContributors] isPersons m) && fine [kFiles] (orNull' isTexts) m) && fine [kMain] isText m) &&
      fine [kMan] (orNull' isMan) m) && fine [kType] isText m) &&
      fine [kRepository] (orNull' (isTextOr [kType, kUrl, kDirectory])) m) && fine [kScripts] (fun v => (textTable v).isSome) m) &&
      fine [kOs] isTexts m) && fine [kCpu] isTexts m) && fine [kPrivate] (orNull' isFlag) m) &&
      fine [kPublishConfig] isObject m) && fine [kWorkspaces] isTexts m) = true := by
    rw [Bool.and_eq_true, Bool.and_eq_true, Bool.and_eq_true, Bool.and_eq_true, Bool.and_eq_true, Bool.and_eq_true, Bool.and_eq_true,
      Bool.and_eq_true, Bool.and_eq_true, Bool.and_eq_true, Bool.and_eq_true, Bool.and_eq_true, Bool.and_eq_true, Bool.and_eq_true,
      Bool.and_eq_true, Bool.and_eq_true, Bool.and_eq_true, Bool.and_eq_true,
      fine_iff isText_iff, fine_iff isText_iff, fine_iff isText_iff, fine_iff (orNull'_iff (isTextOr_iff _)), fine_iff isTexts_iff,
      fine_iff (orNull'_iff hbin), fine_iff (orNull'_iff (isTextOr_iff _)), fine_iff isPersons_iff, fine_iff (orNull'_iff isTexts_iff),
      fine_iff isText_iff, fine_iff (orNull'_iff isMan_iff), fine_iff isText_iff, fine_iff (orNull'_iff (isTextOr_iff _)),
      fine_iff hscr, fine_iff isTexts_iff, fine_iff isTexts_iff, fine_iff (orNull'_iff hflag), fine_iff hobj, fine_iff isTexts_iff]
    constructor
    · rintro ⟨a1, a2, a3, a4, a5, a6, a7, a8, a9, a10, a11, a12, a13, a14, a15, a16, a17, a18, a19⟩
      exact ⟨⟨⟨⟨⟨⟨⟨⟨⟨⟨⟨⟨⟨⟨⟨⟨⟨⟨a1, a2⟩, a3⟩, a4⟩, a5⟩, a6⟩, a7⟩, a8⟩, a9⟩, a10⟩, a11⟩, a12⟩, a13⟩, a14⟩, a15⟩, a16⟩, a17⟩, a18⟩, a19⟩
    · rintro ⟨⟨⟨⟨⟨⟨⟨⟨⟨⟨⟨⟨⟨⟨⟨⟨⟨⟨a1, a2⟩, a3⟩, a4⟩, a5⟩, a6⟩, a7⟩, a8⟩, a9⟩, a10⟩, a11⟩, a12⟩, a13⟩, a14⟩, a15⟩, a16⟩, a17⟩, a18⟩, a19⟩
      exact ⟨a1, a2, a3, a4, a5, a6, a7, a8, a9, a10, a11, a12, a13, a14, a15, a16, a17, a18, a19⟩
  rw [main]
  unfold readFullManifest
  split
  · rename_i hc
    exact ⟨fun h => ⟨hc, h⟩, fun h => h.2⟩
  · rename_i hc
    exact ⟨fun h => (by cases h), fun h => absurd h.1 hc⟩

/-- **C79**: the name of the package in a folder is the one its package.json says, else the folder's; and there is one exactly
when all the fields of the package.json can be understood. -/
theorem C79_name_exact (parseV : Str → Option V) (folder : Option Str) (m : List (Str × Json)) (n : Str) :
    nameFromPath parseV folder (.obj m) = some n ↔
      LegibleManifest m ∧ (∃ r, Describes parseV m r) ∧
      (Says [kName] (Maybe Text) none m (some n) ∨ (Says [kName] (Maybe Text) none m none ∧ folder = some n)) := by
  constructor
  · intro h
    refine ⟨?_, ?_, C79_name h⟩
    all_goals
      simp only [nameFromPath, Option.bind_eq_some_iff] at h
      obtain ⟨r, h1, _⟩ := h
      obtain ⟨a, b⟩ := (legible_iff ..).1 h1
    · exact a
    · exact ⟨r, b⟩
  · rintro ⟨a, ⟨r, b⟩, c⟩
    have h1 := (legible_iff ..).2 ⟨a, b⟩
    simp only [nameFromPath, h1, Option.bind_some]
    have uniq : ∀ x, Says [kName] (Maybe Text) none m x → r.name = x := by
      intro x hx
      have e1 := (field_iff (orNull_iff text_iff) none m r.name).2 b.name
      have e2 := (field_iff (orNull_iff text_iff) none m x).2 hx
      rw [e1] at e2
      exact Option.some.inj e2
    rcases c with c | ⟨c, d⟩
    · rw [uniq _ c]; rfl
    · rw [uniq _ c, d]; rfl

/-- a package.json with a page of manuals and two persons -/
example : nameFromPath (V := Nat) (fun s => some s.length) (some ['f'])
    (.obj [(kMan, .str ['x']), (kContributors, .arr [.str ['a'], .obj [(kEmail, .str ['b'])]])]) = some ['f'] := by decide +kernel

end Docs
end Oro
