import Verif.Proofs.Cli
/-
C36, C48: the apply, add and remove commands.
-/
set_option linter.unusedSectionVars false
namespace Oro
namespace Cli
variable {N L J C T : Type}

/-! ### C36 -/

/-- when `execute` runs the lockfile step, everything before it succeeded -/
theorem execute_cases (o : Opts) (st : Steps N L J C T) (mani : C) (w : World N L J) :
    (o.apply = false ∧ execute o st mani w = (w, true)) ∨
    (o.apply = true ∧ (execute o st mani w).2 = false ∧ (execute o st mani w).1.lock = w.lock ∧
      (execute o st mani w).1.pkg = w.pkg ∧ ¬ ∃ t w', Succeeded o st mani w t w') ∨
    (o.apply = true ∧ ∃ t w', Succeeded o st mani w t w' ∧ w'.lock = w.lock ∧ w'.pkg = w.pkg ∧
      execute o st mani w = stepLock o st t w') := by
  unfold execute
  cases ha : o.apply with
  | false => left; simp
  | true =>
    right
    rw [if_pos rfl]
    cases hr : st.resolve mani o.locked w.lock (loadActual w.metaFile) w.nm with
    | none =>
      left
      refine ⟨rfl, rfl, rfl, rfl, ?_⟩
      rintro ⟨t, w', h, _⟩
      rw [hr] at h; cases h
    | some t =>
      dsimp only
      have hl := install_lock o st t (looked w)
      cases hi : (stepInstall o st t (looked w)).2 with
      | false =>
        left
        rw [andThen_false hi]
        refine ⟨rfl, hi, hl.1, hl.2, ?_⟩
        rintro ⟨t', w', h, h2⟩
        rw [hr] at h
        cases h
        unfold stepInstall at hi
        rcases h2 with ⟨h2, -⟩ | ⟨h2, w1, w2, h3, h4, h5⟩
        · rw [if_pos h2] at hi; simp at hi
        · rw [if_neg (by simp [h2]), andThen_true (by rw [h3]), h3, andThen_true (by rw [h4]), h4, h5] at hi
          simp at hi
      | true =>
        right
        rw [andThen_true hi]
        refine ⟨rfl, t, _, ⟨hr, ?_⟩, hl.1, hl.2, rfl⟩
        unfold stepInstall at hi ⊢
        cases ho : o.lockfileOnly with
        | true => left; simp
        | false =>
          right
          rw [if_neg (by simp [ho])] at hi
          simp only [Bool.false_eq_true, if_false, true_and]
          cases h1 : (stepPrune st t (looked w)).2 with
          | false => rw [andThen_false h1, h1] at hi; cases hi
          | true =>
            rw [andThen_true h1] at hi ⊢
            cases h2 : (stepExtract st t (stepPrune st t (looked w)).1).2 with
            | false => rw [andThen_false h2, h2] at hi; cases hi
            | true =>
              rw [andThen_true h2] at hi ⊢
              exact ⟨_, _, Prod.ext rfl h1, Prod.ext rfl h2, Prod.ext rfl hi⟩

/-- C36: whatever the steps do and wherever they fail, the lockfile is touched only if applying was asked for, a lockfile
was asked for, and resolution and, unless only the lockfile was wanted, pruning, extraction and the rebuild all
succeeded; and then it is what was resolved that is written. -/
theorem C36_order (o : Opts) (st : Steps N L J C T) (mani : C) (w : World N L J)
    (h : (execute o st mani w).1.lock ≠ w.lock) :
    o.apply = true ∧ o.lockfile = true ∧ ∃ t w', Succeeded o st mani w t w' ∧
      (execute o st mani w).1 = { w' with lock := (st.writeLock w.lock (st.lockText t)).1 } := by
  rcases execute_cases o st mani w with ⟨_, h1⟩ | ⟨_, _, h1, _⟩ | ⟨ha, t, w', hs, hl, _, he⟩
  · rw [h1] at h; exact absurd rfl h
  · exact absurd h1 h
  · rw [he] at h ⊢
    cases ho : o.lockfile with
    | false => rw [stepLock, if_neg (by simp [ho])] at h; exact absurd hl h
    | true =>
      refine ⟨ha, rfl, t, w', hs, ?_⟩
      rw [stepLock, if_pos ho, hl]

/-- C36: an apply that reports success did everything, and left the lockfile of what it resolved. -/
theorem C36_success (o : Opts) (st : Steps N L J C T) (mani : C) (w w2 : World N L J) (ha : o.apply = true)
    (hl : o.lockfile = true) (h : execute o st mani w = (w2, true)) :
    ∃ t w', Succeeded o st mani w t w' ∧ st.writeLock w.lock (st.lockText t) = (w2.lock, true) ∧
      w2 = { w' with lock := w2.lock } := by
  rcases execute_cases o st mani w with ⟨h1, _⟩ | ⟨_, h1, _⟩ | ⟨_, t, w', hs, hlk, _, he⟩
  · rw [ha] at h1; cases h1
  · rw [h] at h1; cases h1
  · rw [h, stepLock, if_pos hl, hlk] at he
    refine ⟨t, w', hs, ?_, ?_⟩
    · have h1 := congrArg Prod.fst he
      have h2 := congrArg Prod.snd he
      dsimp only at h1 h2
      rw [h1, h2]
    · have h1 := congrArg Prod.fst he
      dsimp only at h1
      rw [h1]

/-- C36 (lockfile only): nothing in node_modules is changed, and nothing is run, except that an unreadable meta file is
removed. -/
theorem C36_lockfile_only_partial (o : Opts) (st : Steps N L J C T) (mani : C) (w : World N L J)
    (ho : o.lockfileOnly = true) : (execute o st mani w).1.nm = w.nm ∧ (execute o st mani w).1.ran = w.ran ∧
      (execute o st mani w).1.pkg = w.pkg ∧
      (w.metaFile ≠ .unreadable → (execute o st mani w).1.metaFile = w.metaFile) := by
  have hk : (execute o st mani w).1.nm = w.nm ∧ (execute o st mani w).1.ran = w.ran ∧
      (execute o st mani w).1.pkg = w.pkg ∧ ((execute o st mani w).1.metaFile = w.metaFile ∨
        (execute o st mani w).1.metaFile = loadActual w.metaFile) := by
    unfold execute
    split
    · cases hr : st.resolve mani o.locked w.lock (loadActual w.metaFile) w.nm with
      | none => exact ⟨rfl, rfl, rfl, .inr rfl⟩
      | some t =>
        dsimp only
        rw [stepInstall, if_pos ho, andThen_true rfl, stepLock]
        split <;> exact ⟨rfl, rfl, rfl, .inr rfl⟩
    · exact ⟨rfl, rfl, rfl, .inl rfl⟩
  refine ⟨hk.1, hk.2.1, hk.2.2.1, fun hm => ?_⟩
  rcases hk.2.2.2 with h | h
  · exact h
  · rw [h, loadActual, if_neg hm]

/-- C36 is false of the code in one corner: with only the lockfile wanted, an unreadable meta file in node_modules is
deleted (and the next apply, finding none, removes all of node_modules). -/
theorem C36_fails : ∃ (o : Opts) (st : Steps Unit Unit Unit Unit Unit) (w : World Unit Unit Unit),
    o.lockfileOnly = true ∧ (execute o st () w).1.metaFile ≠ w.metaFile :=
  ⟨{ lockfileOnly := true }, ⟨fun _ _ _ _ _ => some (), fun _ m n => ((m, n), true), fun _ m n => ((m, n), true),
    fun _ n => (n, true), fun _ _ n => (n, true), fun _ => (), fun _ _ => ((), true)⟩,
    ⟨.unreadable, (), (), (), []⟩, rfl, by decide⟩

/-- C36: with apply switched off nothing happens at all. -/
theorem C36_no_apply (o : Opts) (st : Steps N L J C T) (mani : C) (w : World N L J) (ho : o.apply = false) :
    execute o st mani w = (w, true) := by
  unfold execute
  rw [if_neg (by simp [ho])]

/-- C36: with the lockfile switched off it is never touched. -/
theorem C36_no_lockfile (o : Opts) (st : Steps N L J C T) (mani : C) (w : World N L J) (ho : o.lockfile = false) :
    (execute o st mani w).1.lock = w.lock := by
  by_contra h
  have := (C36_order o st mani w h).2.1
  rw [ho] at this
  cases this

/-- C36: with scripts switched off none is run. -/
theorem C36_no_scripts (o : Opts) (st : Steps N L J C T) (mani : C) (w : World N L J) (ho : o.scripts = false) :
    (execute o st mani w).1.ran = w.ran := by
  unfold execute
  split
  · cases hr : st.resolve mani o.locked w.lock (loadActual w.metaFile) w.nm with
    | none => rfl
    | some t =>
      refine andThen_keep World.ran (install_ran o st t (looked w) ho) fun w' h => ?_
      rw [stepLock]
      split <;> exact h
  · rfl

/-- C36: the scripts of a successful install are run in the order preinstall, install, postinstall, each phase once. -/
theorem C36_scripts (o : Opts) (st : Steps N L J C T) (mani : C) (w : World N L J) (ha : o.apply = true)
    (hlo : o.lockfileOnly = false) (ho : o.scripts = true) (h : (execute o st mani w).2 = true) :
    (execute o st mani w).1.ran = w.ran ++ [.preinstall, .install, .postinstall] := by
  rcases execute_cases o st mani w with ⟨h1, _⟩ | ⟨_, h1, _⟩ | ⟨_, t, w', hs, _, _, he⟩
  · rw [ha] at h1; cases h1
  · rw [h] at h1; cases h1
  · rw [he]
    have hr : (stepLock o st t w').1.ran = w'.ran := by rw [stepLock]; split <;> rfl
    rw [hr]
    rcases hs.2 with ⟨h1, _⟩ | ⟨_, w1, w2, h3, h4, h5⟩
    · rw [hlo] at h1; cases h1
    · have hw2 : w2.ran = w.ran := by
        have h6 := congrArg (fun p => p.1.ran) h4
        have h7 := congrArg (fun p => p.1.ran) h3
        dsimp only [stepExtract, stepPrune, looked] at h6 h7
        rw [← h6, ← h7]
      rw [← hw2]
      have he : ∀ (w : World N L J) (e : Event), maybeEvent o st t e w = runEvent st t e w := fun w e => by
        rw [maybeEvent, if_pos ho]
      unfold rebuild at h5
      simp only [he] at h5
      cases e1 : (runEvent st t .preinstall w2).2 with
      | false => rw [andThen_false e1] at h5; rw [h5] at e1; cases e1
      | true =>
        rw [andThen_true e1] at h5
        cases e2 : (stepLink st t (runEvent st t .preinstall w2).1).2 with
        | false => rw [andThen_false e2] at h5; rw [h5] at e2; cases e2
        | true =>
          rw [andThen_true e2] at h5
          cases e3 : (runEvent st t .install (stepLink st t (runEvent st t .preinstall w2).1).1).2 with
          | false => rw [andThen_false e3] at h5; rw [h5] at e3; cases e3
          | true =>
            rw [andThen_true e3] at h5
            have h6 := congrArg (fun p => p.1.ran) h5
            dsimp only [runEvent, stepLink] at h6
            rw [← h6]
            simp

/-- C36: `oro apply` applies even if the configuration says not to. -/
theorem C36_apply_forced (readCorgi : J → Option C) (o : Opts) (st : Steps N L J C T) (w : World N L J) :
    applyCmd readCorgi o st w = applyCmd readCorgi { o with apply := !o.apply } st w := by
  unfold applyCmd
  cases readCorgi w.pkg <;> rfl

/-- the hypotheses are met: an apply that fails in its install scripts after extraction leaves the old lockfile, one
that succeeds writes the new one -/
example :
    let st (ok : Bool) : Steps Nat Nat Unit Unit Nat := ⟨fun _ _ _ _ _ => some 7, fun _ m n => ((m, n), true),
      fun _ _ n => ((.good, n + 1), true), fun _ n => (n, true),
      fun _ e n => (n, match e with | .install => ok | _ => true), fun t => t, fun _ l => (l, true)⟩
    let w : World Nat Nat Unit := ⟨.absent, 0, 3, (), []⟩
    execute {} (st false) () w = (⟨.good, 1, 3, (), [.preinstall, .install]⟩, false) ∧
    execute {} (st true) () w = (⟨.good, 1, 7, (), [.preinstall, .install, .postinstall]⟩, true) := by
  exact ⟨rfl, rfl⟩

/-! ### C48 -/

theorem listed_eq : listed = sections := rfl
theorem wanted_eq (dev opt : Bool) : wanted dev opt = depKind dev opt := by cases dev <;> cases opt <;> rfl
theorem depKind_mem (dev opt : Bool) : depKind dev opt ∈ sections := by
  cases dev <;> cases opt <;> simp [depKind, sections]

/-- C48 (one package): after adding, the package is in the requested section, with the requirement asked for, and in no
other one; every other dependency and every other part of package.json is as before. -/
theorem C48_add_one (v v' : Json) (hw : WFJson v) (dev opt : Bool) (name spec : Str)
    (h : addOne (depKind dev opt) v (name, spec) = some v') :
    (∀ ty ∈ listed, entry v' ty name = if ty = wanted dev opt then some (.str spec) else none) ∧
    (∀ ty n, n ≠ name → entry v' ty n = entry v ty n) ∧ (∀ k, k ∉ listed → v'.index k = v.index k) ∧ WFJson v' := by
  rw [listed_eq]; rw [wanted_eq]
  obtain ⟨h1, h2, h3⟩ := removeFrom_spec hw name
  obtain ⟨h4, h5, h6⟩ := set2_spec h1 h
  refine ⟨?_, ?_, ?_, h4⟩
  · intro ty hty
    rw [h6, h3]
    by_cases he : ty = depKind dev opt
    · rw [if_pos ⟨he, rfl⟩, if_pos he]
    · rw [if_neg (fun h => he h.1), if_pos ⟨hty, rfl⟩, if_neg he]
  · intro ty n hn
    rw [h6, if_neg (fun h => hn h.2), h3, if_neg (fun h => hn h.2)]
  · intro k hk
    rw [h5 k (fun he => hk (he ▸ depKind_mem dev opt)), h2 k hk]

/-- the requirement written last for a name -/
def lastFor (ps : List (Str × Str)) (name : Str) : Option Str := ((ps.reverse.find? fun p => p.1 = name).map Prod.snd)

/-- C48: after adding any list of packages, each of them is in the requested section and in no other, with the
requirement given last for it; nothing else is changed. -/
theorem C48_add (v v' : Json) (hw : WFJson v) (dev opt : Bool) (ps : List (Str × Str))
    (h : addAll (depKind dev opt) v ps = some v') :
    (∀ name spec, lastFor ps name = some spec → ∀ ty ∈ listed,
      entry v' ty name = if ty = wanted dev opt then some (.str spec) else none) ∧
    (∀ ty n, (∀ p ∈ ps, p.1 ≠ n) → entry v' ty n = entry v ty n) ∧
    (∀ k, k ∉ listed → v'.index k = v.index k) ∧ WFJson v' := by
  rw [listed_eq]; rw [wanted_eq]
  have hnone : ∀ l : List (Str × Str), l.foldl (fun (v : Option Json) p => v.bind fun v => addOne (depKind dev opt) v p) none
      = none := by
    intro l
    induction l with
    | nil => rfl
    | cons _ _ ih => exact ih
  unfold addAll at h
  induction ps generalizing v with
  | nil =>
    cases h
    exact ⟨fun n s h => (by simp [lastFor] at h), fun _ _ _ => rfl, fun _ _ => rfl, hw⟩
  | cons p ps ih =>
    rw [List.foldl_cons, Option.bind_some] at h
    cases ha : addOne (depKind dev opt) v p with
    | none => rw [ha, hnone] at h; cases h
    | some v1 =>
      rw [ha] at h
      obtain ⟨a1, a2, a3, a4⟩ := C48_add_one v v1 hw dev opt p.1 p.2 ha
      obtain ⟨b1, b2, b3, b4⟩ := ih v1 a4 h
      refine ⟨?_, ?_, ?_, b4⟩
      · intro name spec hl ty hty
        unfold lastFor at hl
        rw [List.reverse_cons, List.find?_append] at hl
        cases hf : ps.reverse.find? (fun p => p.1 = name) with
        | some q =>
          rw [hf] at hl
          refine b1 name spec ?_ ty hty
          rw [lastFor, hf]
          exact hl
        | none =>
          rw [hf, Option.none_or, List.find?_singleton] at hl
          split at hl
          · rename_i hp
            have hp' : p.1 = name := of_decide_eq_true hp
            simp only [Option.map_some, Option.some.injEq] at hl
            rw [b2 ty name, ← hp', a1 ty hty, wanted_eq, hl]
            intro q hq he
            have := List.find?_eq_none.1 hf q (List.mem_reverse.2 hq)
            simp [he] at this
          · simp at hl
      · intro ty n hn
        rw [b2 ty n (fun q hq => hn q (List.mem_cons_of_mem _ hq)), a2 ty n (fun h => hn p List.mem_cons_self h.symm)]
      · intro k hk
        rw [b3 k hk, a3 k hk]

/-- C48: removing packages deletes them from all four sections and changes nothing else. -/
theorem C48_remove (v : Json) (hw : WFJson v) (names : List Str) :
    (∀ ty ∈ listed, ∀ n ∈ names, entry (names.foldl removeFrom v) ty n = none) ∧
    (∀ ty n, n ∉ names → entry (names.foldl removeFrom v) ty n = entry v ty n) ∧
    (∀ k, k ∉ listed → (names.foldl removeFrom v).index k = v.index k) := by
  rw [listed_eq]
  induction names generalizing v with
  | nil => exact ⟨fun _ _ _ h => (by simp at h), fun _ _ _ => rfl, fun _ _ => rfl⟩
  | cons a names ih =>
    obtain ⟨h1, h2, h3⟩ := removeFrom_spec hw a
    obtain ⟨i1, i2, i3⟩ := ih _ h1
    refine ⟨?_, ?_, ?_⟩
    · intro ty hty n hn
      by_cases hm : n ∈ names
      · exact i1 ty hty n hm
      · rw [List.foldl_cons, i2 ty n hm, h3, if_pos ⟨hty, (List.mem_cons.1 hn).resolve_right hm⟩]
    · intro ty n hn
      rw [List.mem_cons, not_or] at hn
      rw [List.foldl_cons, i2 ty n hn.2, h3, if_neg (fun h => hn.1 h.2)]
    · intro k hk
      rw [List.foldl_cons, i3 k hk, h2 k hk]

/-- the edited manifest is applied and written in that order -/
theorem applyEdited_order {F : Type} (ed : Editing J C F) (o : Opts) (st : Steps N L J C T) (f : F) (w : World N L J)
    (h : (applyEdited ed o st f w).1.pkg ≠ w.pkg ∨ (applyEdited ed o st f w).2 = true) :
    (applyEdited ed o st f w).1.pkg = ed.write f ∧ ∃ c w', ed.corgi (ed.write f) = some c ∧
      execute { o with locked := false } st c w = (w', true) := by
  unfold applyEdited at h ⊢
  cases hc : ed.corgi (ed.write f) with
  | none => rw [hc] at h; simp at h
  | some c =>
    rw [hc] at h
    dsimp only at h ⊢
    have hpkg : (execute { o with locked := false } st c w).1.pkg = w.pkg := by
      rcases execute_cases { o with locked := false } st c w with ⟨_, h1⟩ | ⟨_, _, _, h1, _⟩ | ⟨_, t, w', _, _, h2, he⟩
      · rw [h1]
      · exact h1
      · rw [he, stepLock]; split <;> exact h2
    cases he : (execute { o with locked := false } st c w).2 with
    | false =>
      rw [andThen_false he] at h
      rcases h with h | h
      · exact absurd hpkg h
      · rw [he] at h; cases h
    | true =>
      rw [andThen_true he]
      exact ⟨rfl, c, _, rfl, Prod.ext rfl he⟩

/-- C48: `oro add` touches package.json only if every package was resolved and the edited manifest was applied without
failure, and then writes that manifest. -/
theorem C48_add_order {F : Type} (ed : Editing J C F) (o : Opts) (st : Steps N L J C T) (kind : Str)
    (resolved : Option (List (Str × Str))) (w : World N L J)
    (h : (addCmd ed o st kind resolved w).1.pkg ≠ w.pkg ∨ (addCmd ed o st kind resolved w).2 = true) :
    ∃ f ps v, ed.read w.pkg = some f ∧ resolved = some ps ∧ addAll kind (ed.value f) ps = some v ∧
      (addCmd ed o st kind resolved w).1.pkg = ed.write (ed.withValue f v) ∧
      ∃ c w', ed.corgi (ed.write (ed.withValue f v)) = some c ∧ execute { o with locked := false } st c w = (w', true) := by
  unfold addCmd at h ⊢
  cases hr : ed.read w.pkg with
  | none => rw [hr] at h; simp at h
  | some f =>
    rw [hr] at h
    cases hp : resolved with
    | none => rw [hp] at h; simp at h
    | some ps =>
      rw [hp] at h
      dsimp only [Option.bind_some] at h ⊢
      cases hv : addAll kind (ed.value f) ps with
      | none => rw [hv] at h; simp at h
      | some v =>
        rw [hv] at h
        exact ⟨f, ps, v, rfl, rfl, hv, applyEdited_order ed o st _ w h⟩

/-- C48: the same of `oro remove`. -/
theorem C48_remove_order {F : Type} (ed : Editing J C F) (o : Opts) (st : Steps N L J C T)
    (names : Option (List Str)) (w : World N L J)
    (h : (removeCmd ed o st names w).1.pkg ≠ w.pkg ∨ (removeCmd ed o st names w).2 = true) :
    ∃ f ns, ed.read w.pkg = some f ∧ names = some ns ∧
      (removeCmd ed o st names w).1.pkg = ed.write (ed.withValue f (ns.foldl removeFrom (ed.value f))) ∧
      ∃ c w', ed.corgi (ed.write (ed.withValue f (ns.foldl removeFrom (ed.value f)))) = some c ∧
        execute { o with locked := false } st c w = (w', true) := by
  unfold removeCmd at h ⊢
  cases hr : ed.read w.pkg with
  | none => rw [hr] at h; simp at h
  | some f =>
    rw [hr] at h
    cases hp : names with
    | none => rw [hp] at h; simp at h
    | some ns =>
      rw [hp] at h
      exact ⟨f, ns, rfl, rfl, applyEdited_order ed o st _ w h⟩

/-- adding to a manifest whose sections are objects or missing never crashes -/
theorem C48_add_defined (v : Json) (dev opt : Bool) (p : Str × Str) (m : IMap Str Json) (hv : v = .obj m)
    (hs : ∀ ty ∈ listed, ∀ j, IMap.get? m ty = some j → ∃ d, j = .obj d) :
    ∃ v', addOne (depKind dev opt) v p = some v' := by
  rw [listed_eq] at hs
  have hrem : ∀ (l : List Str), (∀ ty ∈ l, ty ∈ sections) → ∀ m : IMap Str Json,
      (∀ ty ∈ sections, ∀ j, IMap.get? m ty = some j → ∃ d, j = .obj d) →
      ∃ m', l.foldl (removeIn p.1) (.obj m) = .obj m' ∧
        ∀ ty ∈ sections, ∀ j, IMap.get? m' ty = some j → ∃ d, j = .obj d := by
    intro l
    induction l with
    | nil => intro _ m hm; exact ⟨m, rfl, hm⟩
    | cons ty l ih =>
      intro hl m hm
      have : ∃ m1, removeIn p.1 (.obj m) ty = .obj m1 ∧
          ∀ ty ∈ sections, ∀ j, IMap.get? m1 ty = some j → ∃ d, j = .obj d := by
        unfold removeIn
        cases hg : IMap.get? m ty with
        | none => exact ⟨m, by simp only [hg], hm⟩
        | some j =>
          obtain ⟨d, rfl⟩ := hm ty (hl ty List.mem_cons_self) j hg
          refine ⟨IMap.insert m ty (.obj (IMap.swapRemove d p.1)), by simp only [hg], ?_⟩
          intro ty' h' j' hj
          rw [IMap.get?_insert] at hj
          split at hj
          · cases hj; exact ⟨_, rfl⟩
          · exact hm ty' h' j' hj
      obtain ⟨m1, he, h1⟩ := this
      rw [List.foldl_cons, he]
      exact ih (fun ty h => hl ty (List.mem_cons_of_mem _ h)) m1 h1
  obtain ⟨m', he, hm'⟩ := hrem sections (fun _ h => h) m hs
  subst hv
  unfold addOne removeFrom
  rw [he]
  unfold Json.set2
  simp only [Json.asMap, Option.bind_some]
  cases hg : IMap.get? m' (depKind dev opt) with
  | none => exact ⟨_, rfl⟩
  | some j =>
    obtain ⟨d, rfl⟩ := hm' _ (depKind_mem dev opt) j hg
    exact ⟨_, rfl⟩

/-- C48: the order of the other dependencies is not kept: removing the first of three moves the last one to its place. -/
theorem C48_order_fails : ∃ v : Json, WFJson v ∧
    v = .obj [(kDeps, .obj [(['a'], .null), (['b'], .null), (['c'], .null)])] ∧
    removeFrom v ['a'] = .obj [(kDeps, .obj [(['c'], .null), (['b'], .null)])] := by
  refine ⟨_, ?_, rfl, rfl⟩
  intro m he
  cases he
  refine ⟨by unfold IMap.WF; decide, ?_⟩
  intro k d hd
  by_cases hk : k = kDeps
  · subst hk
    cases hd
    unfold IMap.WF; decide
  · unfold IMap.get? at hd
    rw [if_neg (fun h => hk h.symm)] at hd
    cases hd

/-- C48: a manifest whose section is not an object crashes the command. -/
theorem C48_panics : ∃ v : Json, WFJson v ∧ addOne kDeps v (['a'], ['1']) = none := by
  refine ⟨.obj [(kDeps, .arr [])], ?_, rfl⟩
  intro m he
  cases he
  refine ⟨by unfold IMap.WF; decide, ?_⟩
  intro k d hd
  unfold IMap.get? at hd
  split at hd <;> cases hd

/-- the hypotheses are met: moving a package from dependencies to devDependencies -/
example : addAll (depKind true false) (.obj [(['n'], .str ['x']), (kDeps, .obj [(['a'], .str ['1']), (['b'], .str ['2'])])])
    [(['a'], ['3'])] =
    some (.obj [(['n'], .str ['x']), (kDeps, .obj [(['b'], .str ['2'])]), (kDev, .obj [(['a'], .str ['3'])])]) := rfl

end Cli
end Oro
