import Verif.Proofs.AtPath
import Verif.Spec.Bins
import Verif.Proofs.Bins
set_option linter.unusedSectionVars false
/-!
# The commands of a package
-/
namespace Oro
namespace Bins

theorem target_of_fileName {p n : Str} (h : RPath.fileName p = some n) : target p ≠ [] := by
  unfold RPath.fileName at h
  split at h
  · rename_i s he
    have hm := List.mem_of_getLast? he
    intro hn
    have : Comp.normal s ∈ target p := by
      unfold target
      rw [List.mem_filter]
      exact ⟨hm, by simp⟩
    rw [hn] at this
    cases this
  · cases h

/-- what the list form gives -/
theorem ofArray_spec (l : List Str) : ∀ (m m' : IMap Str Str), m.WF → ofArray l m = some m' → m'.WF ∧
    (∀ n, (m'.get? n).isSome ↔ (m.get? n).isSome ∨ ∃ p ∈ l, RPath.fileName p = some n) ∧
    ∀ n p, m'.get? n = some p → m.get? n = some p ∨ (p ∈ l ∧ RPath.fileName p = some n) := by
  induction l with
  | nil =>
    intro m m' hw h
    cases h
    exact ⟨hw, by simp, fun n p h => .inl h⟩
  | cons b l ih =>
    intro m m' hw h
    rw [ofArray] at h
    split at h
    · cases h
    · rename_i n hn
      obtain ⟨h1, h2, h3⟩ := ih _ _ (IMap.wf_insert hw _ _) h
      refine ⟨h1, ?_, ?_⟩
      · intro k
        rw [h2 k, IMap.get?_insert]
        constructor
        · rintro (hk | ⟨p, hp, hk⟩)
          · split at hk
            · rename_i he
              exact .inr ⟨b, List.mem_cons_self, by rw [hn, he]⟩
            · exact .inl hk
          · exact .inr ⟨p, List.mem_cons_of_mem _ hp, hk⟩
        · rintro (hk | ⟨p, hp, hk⟩)
          · left
            split
            · rfl
            · exact hk
          · rcases List.mem_cons.1 hp with rfl | hp
            · left
              rw [hn] at hk
              cases hk
              simp
            · exact .inr ⟨p, hp, hk⟩
      · intro k p hk
        rcases h3 k p hk with hk | ⟨hp, hk⟩
        · rw [IMap.get?_insert] at hk
          split at hk
          · rename_i he
            cases hk
            exact .inr ⟨List.mem_cons_self, by rw [hn, he]⟩
          · exact .inl hk
        · exact .inr ⟨List.mem_cons_of_mem _ hp, hk⟩

theorem fold_insert {m : IMap Str Str} (hw : m.WF) : m.foldl (fun m kv => IMap.insert m kv.1 kv.2) [] = m := by
  have : ∀ (l acc : IMap Str Str), IMap.WF (acc ++ l) → l.foldl (fun m kv => IMap.insert m kv.1 kv.2) acc = acc ++ l := by
    intro l
    induction l with
    | nil => intro acc _; simp
    | cons p l ih =>
      intro acc hw
      rw [List.foldl_cons, IMap.insert_of_notMem, ih]
      · simp
      · simpa using hw
      · intro hm
        unfold IMap.WF IMap.keys at hw
        unfold IMap.keys at hm
        rw [List.map_append, List.map_cons] at hw
        exact (List.nodup_append.1 hw).2.2 _ hm _ List.mem_cons_self rfl
  have h := this m [] (by simpa using hw)
  simpa using h

/-- **C72** (for packages that do not use `directories.bin`): the manifest can be used unless it lists a path without a file
name; then every declared command with a usable name and path is there, and every command that is there is a declared one
with its path. -/
theorem C72_commands_partial (ord : IMap Str Str → List (Str × Str)) (ho : ∀ m, (ord m).Perm m) (disk : Disk) (cwd pkg : Loc) (r : Raw)
    (hr : r.bin = none → r.dirBin = none) (hm : ∀ m, r.bin = some (.hash m) → m.WF) :
    match normalize ord disk cwd r with
    | none => ∃ l, r.bin = some (.array l) ∧ ∃ p ∈ l, RPath.fileName p = none
    | some m => (∀ n p b, Declares disk pkg r n p → baseName n = some b → target p ≠ [] → (m.get? b).isSome) ∧
        ∀ b t, m.get? b = some t → ∃ n p, Declares disk pkg r n p ∧ baseName n = some b ∧ target p = t := by
  -- from the declared commands
  have key : ∀ d : IMap Str Str, d.WF → declared disk cwd r = some d →
      (∀ n p, Declares disk pkg r n p → ∃ p', d.get? n = some p' ∧ (target p ≠ [] → target p' ≠ [])) →
      (∀ n p, d.get? n = some p → Declares disk pkg r n p) →
      match normalize ord disk cwd r with
      | none => ∃ l, r.bin = some (.array l) ∧ ∃ p ∈ l, RPath.fileName p = none
      | some m => (∀ n p b, Declares disk pkg r n p → baseName n = some b → target p ≠ [] → (m.get? b).isSome) ∧
        ∀ b t, m.get? b = some t → ∃ n p, Declares disk pkg r n p ∧ baseName n = some b ∧ target p = t := by
    intro d hw hd h1 h2
    unfold normalize
    rw [hd, Option.map_some]
    dsimp only
    constructor
    · intro n p b hD hb ht
      obtain ⟨p', hp', ht'⟩ := h1 n p hD
      exact foldl_addBin_mem _ _ n p' b ((ho d).mem_iff.2 ((IMap.get?_some_iff_mem hw).1 hp')) hb (ht' ht)
    · intro b t hbt
      have hinv : ∀ (l : List (Str × Str)) (acc : IMap Str (List Comp)), (∀ x ∈ l, x ∈ d) →
          (∀ b t, acc.get? b = some t → ∃ n p, Declares disk pkg r n p ∧ baseName n = some b ∧ target p = t) →
          ∀ b t, IMap.get? (l.foldl addBin acc) b = some t → ∃ n p, Declares disk pkg r n p ∧ baseName n = some b ∧ target p = t := by
        intro l
        induction l with
        | nil => intro acc _ hacc; exact hacc
        | cons x l ih =>
          intro acc hx hacc
          rw [List.foldl_cons]
          refine ih _ (fun y hy => hx y (List.mem_cons_of_mem _ hy)) ?_
          intro b t hb
          unfold addBin at hb
          split at hb
          · exact hacc b t hb
          · rename_i b' hb'
            split at hb
            · exact hacc b t hb
            · rw [IMap.get?_insert] at hb
              split at hb
              · rename_i he
                cases hb
                subst he
                exact ⟨x.1, x.2, h2 _ _ ((IMap.get?_some_iff_mem hw).2 (hx x List.mem_cons_self)), hb', rfl⟩
              · exact hacc b t hb
      exact hinv _ [] (fun x hx => (ho d).mem_iff.1 hx) (by intro b t h; cases h) b t hbt
  obtain ⟨x, hb⟩ : ∃ x, r.bin = x := ⟨_, rfl⟩
  cases x with
  | none =>
    have hd := hr hb
    refine key [] IMap.wf_nil (by unfold declared; rw [hb, hd]) ?_ (by intro n p h; cases h)
    intro n p hD
    cases hD with
    | hash h _ => rw [hb] at h; cases h
    | str h _ => rw [hb] at h; cases h
    | array h _ _ => rw [hb] at h; cases h
    | folder _ h _ _ _ => rw [hd] at h; cases h
  | some x =>
    cases x with
    | hash m =>
      have hw := hm m hb
      refine key m hw (by unfold declared; rw [hb]; dsimp only; rw [fold_insert hw]) ?_ ?_
      · intro n p hD
        cases hD with
        | hash h hp =>
          rw [hb] at h
          cases h
          exact ⟨p, (IMap.get?_some_iff_mem hw).2 hp, id⟩
        | str h _ => rw [hb] at h; cases h
        | array h _ _ => rw [hb] at h; cases h
        | folder h _ _ _ _ => rw [hb] at h; cases h
      · intro n p h
        exact .hash hb ((IMap.get?_some_iff_mem hw).1 h)
    | str q =>
      cases hn : r.name with
      | none =>
        refine key [] IMap.wf_nil (by unfold declared; rw [hb, hn]) ?_ (by intro n p h; cases h)
        intro n p hD
        cases hD with
        | hash h _ => rw [hb] at h; cases h
        | str _ h => rw [hn] at h; cases h
        | array h _ _ => rw [hb] at h; cases h
        | folder h _ _ _ _ => rw [hb] at h; cases h
      | some name =>
        have hw : IMap.WF [(name, q)] := by simp [IMap.WF, IMap.keys]
        refine key [(name, q)] hw (by unfold declared; rw [hb, hn]) ?_ ?_
        · intro n p hD
          cases hD with
          | hash h _ => rw [hb] at h; cases h
          | str h h' =>
            rw [hb] at h
            rw [hn] at h'
            cases h
            cases h'
            exact ⟨q, by simp [IMap.get?], id⟩
          | array h _ _ => rw [hb] at h; cases h
          | folder h _ _ _ _ => rw [hb] at h; cases h
        · intro n p h
          have := (IMap.get?_some_iff_mem hw).1 h
          rw [List.mem_singleton, Prod.mk.injEq] at this
          obtain ⟨rfl, rfl⟩ := this
          exact .str hb hn
    | array l =>
      cases hl : ofArray l [] with
      | none =>
        have hnone : declared disk cwd r = none := by unfold declared; rw [hb]; exact hl
        unfold normalize
        rw [hnone]
        refine ⟨l, hb, ?_⟩
        have : ∀ (l : List Str) (acc : IMap Str Str), ofArray l acc = none → ∃ p ∈ l, RPath.fileName p = none := by
          intro l
          induction l with
          | nil => intro acc h; cases h
          | cons b l ih =>
            intro acc h
            rw [ofArray] at h
            split at h
            · rename_i hn
              exact ⟨b, List.mem_cons_self, hn⟩
            · obtain ⟨p, hp, hn⟩ := ih _ h
              exact ⟨p, List.mem_cons_of_mem _ hp, hn⟩
        exact this l [] hl
      | some d =>
        obtain ⟨h1, h2, h3⟩ := ofArray_spec l [] d IMap.wf_nil hl
        refine key d h1 (by unfold declared; rw [hb]; exact hl) ?_ ?_
        · intro n p hD
          cases hD with
          | hash h _ => rw [hb] at h; cases h
          | str h _ => rw [hb] at h; cases h
          | array h hp hn =>
            rw [hb] at h
            cases h
            obtain ⟨p', hp'⟩ := Option.isSome_iff_exists.1 ((h2 n).2 (.inr ⟨p, hp, hn⟩))
            refine ⟨p', hp', fun _ => ?_⟩
            rcases h3 n p' hp' with h | ⟨_, h⟩
            · cases h
            · exact target_of_fileName h
          | folder h _ _ _ _ => rw [hb] at h; cases h
        · intro n p h
          rcases h3 n p h with h | ⟨hp, hn⟩
          · cases h
          · exact .array hb hp hn

/-- what the walk gives -/
theorem ofWalk_spec (w : List Str) : (ofWalk w).WF ∧
    (∀ n, ((ofWalk w).get? n).isSome ↔ ∃ p ∈ w, walkName p = some n) ∧
    ∀ n p, (ofWalk w).get? n = some p → p ∈ w ∧ walkName p = some n := by
  have key : ∀ (w : List Str) (m : IMap Str Str), m.WF →
      IMap.WF (w.foldl walkOne m) ∧
      (∀ n, (IMap.get? (w.foldl walkOne m) n).isSome ↔ (m.get? n).isSome ∨ ∃ p ∈ w, walkName p = some n) ∧
      ∀ n p, IMap.get? (w.foldl walkOne m) n = some p → m.get? n = some p ∨ (p ∈ w ∧ walkName p = some n) := by
    intro w
    induction w with
    | nil => intro m hw; exact ⟨hw, by simp, fun n p h => .inl h⟩
    | cons b w ih =>
      intro m hw
      rw [List.foldl_cons]
      cases hn : walkName b with
      | none =>
        rw [show walkOne m b = m by unfold walkOne; rw [hn]]
        obtain ⟨h1, h2, h3⟩ := ih m hw
        refine ⟨h1, ?_, ?_⟩
        · intro n
          rw [h2 n]
          constructor
          · rintro (h | ⟨p, hp, h⟩)
            · exact .inl h
            · exact .inr ⟨p, List.mem_cons_of_mem _ hp, h⟩
          · rintro (h | ⟨p, hp, h⟩)
            · exact .inl h
            · rcases List.mem_cons.1 hp with rfl | hp
              · rw [hn] at h; cases h
              · exact .inr ⟨p, hp, h⟩
        · intro n p h
          rcases h3 n p h with h | ⟨hp, h⟩
          · exact .inl h
          · exact .inr ⟨List.mem_cons_of_mem _ hp, h⟩
      | some k =>
        rw [show walkOne m b = IMap.insert m k b by unfold walkOne; rw [hn]]
        obtain ⟨h1, h2, h3⟩ := ih (IMap.insert m k b) (IMap.wf_insert hw _ _)
        refine ⟨h1, ?_, ?_⟩
        · intro n
          rw [h2 n, IMap.get?_insert]
          constructor
          · rintro (h | ⟨p, hp, h⟩)
            · split at h
              · rename_i he
                exact .inr ⟨b, List.mem_cons_self, by rw [hn, he]⟩
              · exact .inl h
            · exact .inr ⟨p, List.mem_cons_of_mem _ hp, h⟩
          · rintro (h | ⟨p, hp, h⟩)
            · left
              split
              · rfl
              · exact h
            · rcases List.mem_cons.1 hp with rfl | hp
              · left
                rw [hn] at h
                cases h
                simp
              · exact .inr ⟨p, hp, h⟩
        · intro n p h
          rcases h3 n p h with h | ⟨hp, h⟩
          · rw [IMap.get?_insert] at h
            split at h
            · rename_i he
              cases h
              exact .inr ⟨List.mem_cons_self, by rw [hn, he]⟩
            · exact .inl h
          · exact .inr ⟨List.mem_cons_of_mem _ hp, h⟩
  obtain ⟨h1, h2, h3⟩ := key w [] IMap.wf_nil
  refine ⟨h1, ?_, ?_⟩
  · intro n
    have := h2 n
    unfold ofWalk
    simpa [IMap.get?] using this
  · intro n p h
    rcases h3 n p h with h | h
    · cases h
    · exact h

theorem fileName_of_walk {p n : Str} (h : walkName p = some n) : RPath.fileName p = some n := by
  unfold walkName at h
  split at h
  · cases h
  · exact h

/-- **C72 fails** for packages with `directories.bin`: the folder is looked for in the working directory of the process, not in
the package. Where there is none, the package cannot be installed, whatever it contains; where there is one, the commands are
its files, and not the package's. -/
theorem C72_directories_fails (ord : IMap Str Str → List (Str × Str)) (ho : ∀ m, (ord m).Perm m) (disk : Disk) (cwd : Loc) (r : Raw) (d : Str)
    (h1 : r.bin = none) (h2 : r.dirBin = some d) :
    (disk (RPath.goTo cwd (RPath.components d)) = none → normalize ord disk cwd r = none) ∧
    ∀ l, disk (RPath.goTo cwd (RPath.components d)) = some l → ∃ m, normalize ord disk cwd r = some m ∧
      (∀ rel ∈ l, ∀ n b, walkName (d ++ rel.flatMap fun c => '/' :: c) = some n → baseName n = some b → (m.get? b).isSome) ∧
      ∀ b t, m.get? b = some t → ∃ rel ∈ l, ∃ n, walkName (d ++ rel.flatMap fun c => '/' :: c) = some n ∧ baseName n = some b ∧
        t = target (d ++ rel.flatMap fun c => '/' :: c) := by
  constructor
  · intro h
    unfold normalize declared walk
    rw [h1, h2]
    dsimp only
    rw [h]
    rfl
  · intro l h
    unfold normalize declared walk
    rw [h1, h2]
    dsimp only
    rw [h]
    refine ⟨_, rfl, ?_⟩
    obtain ⟨w1, w2, w3⟩ := ofWalk_spec (l.map fun rel => d ++ rel.flatMap fun c => '/' :: c)
    constructor
    · intro rel hrel n b hn hb
      obtain ⟨p, hp⟩ := Option.isSome_iff_exists.1 ((w2 n).2 ⟨_, List.mem_map.2 ⟨rel, hrel, rfl⟩, hn⟩)
      exact foldl_addBin_mem _ _ n p b ((ho _).mem_iff.2 ((IMap.get?_some_iff_mem w1).1 hp)) hb
        (target_of_fileName (fileName_of_walk (w3 n p hp).2))
    · intro b t hbt
      have hinv : ∀ (x : List (Str × Str)) (acc : IMap Str (List Comp)),
          (∀ y ∈ x, y ∈ ofWalk (l.map fun rel => d ++ rel.flatMap fun c => '/' :: c)) →
          (∀ b t, acc.get? b = some t → ∃ rel ∈ l, ∃ n, walkName (d ++ rel.flatMap fun c => '/' :: c) = some n ∧ baseName n = some b ∧
            t = target (d ++ rel.flatMap fun c => '/' :: c)) →
          ∀ b t, IMap.get? (x.foldl addBin acc) b = some t → ∃ rel ∈ l, ∃ n, walkName (d ++ rel.flatMap fun c => '/' :: c) = some n ∧
            baseName n = some b ∧ t = target (d ++ rel.flatMap fun c => '/' :: c) := by
        intro x
        induction x with
        | nil => intro acc _ hacc; exact hacc
        | cons y x ih =>
          intro acc hx hacc
          rw [List.foldl_cons]
          refine ih _ (fun z hz => hx z (List.mem_cons_of_mem _ hz)) ?_
          intro b t hb
          unfold addBin at hb
          split at hb
          · exact hacc b t hb
          · rename_i b' hb'
            split at hb
            · exact hacc b t hb
            · rw [IMap.get?_insert] at hb
              split at hb
              · rename_i he
                cases hb
                subst he
                obtain ⟨hp, hn⟩ := w3 _ _ ((IMap.get?_some_iff_mem w1).2 (hx y List.mem_cons_self))
                obtain ⟨rel, hrel, he⟩ := List.mem_map.1 hp
                exact ⟨rel, hrel, y.1, by rw [he]; exact hn, hb', by rw [he]⟩
              · exact hacc b t hb
      exact hinv _ [] (fun y hy => (ho _).mem_iff.1 hy) (by intro b t h; cases h) b t hbt

/-- where an absolute path leads -/
theorem goTo_absolute (cwd : Loc) (a : Str) (names : List Str) (h : ∀ n ∈ a :: names, '/' ∉ n ∧ n ≠ [] ∧ n ≠ ['.'] ∧ n ≠ ['.', '.']) :
    RPath.goTo cwd (RPath.components ('/' :: (a ++ names.flatMap fun n => '/' :: n))) = a :: names := by
  have hsplit : ∀ (names : List Str) (a : Str), (∀ n ∈ a :: names, '/' ∉ n) → PSpec.splitChar '/' (a ++ names.flatMap fun n => '/' :: n) = a :: names := by
    intro names
    induction names with
    | nil => intro a ha; simpa using splitChar_one (ha a (by simp))
    | cons b l ih =>
      intro a ha
      have ha' : '/' ∉ a := ha a (by simp)
      have hrec := ih b (fun n hn => ha n (List.mem_cons_of_mem _ hn))
      rw [List.flatMap_cons]
      clear ih ha
      induction a with
      | nil => simp only [List.nil_append, List.cons_append, PSpec.splitChar, if_true, hrec]
      | cons x a iha =>
        have hx : x ≠ '/' := fun h => ha' (by simp [h])
        have := iha (fun h => ha' (List.mem_cons_of_mem _ h))
        simp only [List.cons_append, PSpec.splitChar, hx, if_false]
        simp only [List.cons_append] at this
        rw [this]
  have hgo : ∀ (l : List Str) (w : Loc), RPath.goTo w (l.map Comp.normal) = w ++ l := by
    intro l
    induction l with
    | nil => intro w; simp [RPath.goTo]
    | cons x l ih => intro w; simp [RPath.goTo, ih]
  show RPath.goTo cwd (.root :: (PSpec.splitChar '/' (a ++ names.flatMap fun n => '/' :: n)).filterMap RPath.piece) = _
  rw [hsplit names a (fun n hn => (h n hn).1)]
  have : (a :: names).filterMap RPath.piece = (a :: names).map Comp.normal := by
    rw [← List.filterMap_eq_map]
    apply List.filterMap_congr
    intro n hn
    obtain ⟨_, h1, h2, h3⟩ := h n hn
    unfold RPath.piece
    split <;> simp_all
  rw [this]
  show RPath.goTo [] _ = _
  rw [hgo]; rfl

/-- **C72 fails** for packages with an absolute `directories.bin`: the folder of that name on the machine is read, wherever the package
and the process are; if there is none, the package cannot be installed. -/
theorem C72_absolute_fails (ord : IMap Str Str → List (Str × Str)) (ho : ∀ m, (ord m).Perm m) (disk : Disk) (cwd : Loc) (r : Raw) (a : Str)
    (names : List Str) (h : ∀ n ∈ a :: names, '/' ∉ n ∧ n ≠ [] ∧ n ≠ ['.'] ∧ n ≠ ['.', '.']) (h1 : r.bin = none)
    (h2 : r.dirBin = some ('/' :: (a ++ names.flatMap fun n => '/' :: n))) :
    (disk (a :: names) = none → normalize ord disk cwd r = none) ∧
    ∀ l, disk (a :: names) = some l → ∃ m, normalize ord disk cwd r = some m ∧
      ∀ rel ∈ l, ∀ n b, walkName (('/' :: (a ++ names.flatMap fun n => '/' :: n)) ++ rel.flatMap fun c => '/' :: c) = some n → baseName n = some b →
        (m.get? b).isSome := by
  have := C72_directories_fails ord ho disk cwd r _ h1 h2
  rw [goTo_absolute cwd a names h] at this
  refine ⟨this.1, fun l hl => ?_⟩
  obtain ⟨m, h3, h4, _⟩ := this.2 l hl
  exact ⟨m, h3, h4⟩

/-- "/usr/bin": its files become commands -/
example : normalize (fun m => m) (fun p => if p = [['u'], ['b']] then some [[], [['x']]] else none) [['w']] ⟨some ['p'], none, some ['/', 'u', '/', 'b']⟩
    = some [(['b'], [.normal ['u'], .normal ['b']]), (['x'], [.normal ['u'], .normal ['b'], .normal ['x']])] := by decide +kernel

/-- **C72 fails** for packages with `directories.bin` written `./folder`, also in a process that works in the package's folder:
there are no commands at all. -/
theorem C72_dot_fails (ord : IMap Str Str → List (Str × Str)) (ho : ∀ m, (ord m).Perm m) (disk : Disk) (cwd : Loc) (r : Raw) (d : Str)
    (h1 : r.bin = none) (h2 : r.dirBin = some ('.' :: '/' :: d)) (m : IMap Str (List Comp)) (h : normalize ord disk cwd r = some m) :
    m = [] := by
  have hcur : ∀ x, walkName ('.' :: '/' :: x) = none := by
    intro x
    have : RPath.components ('.' :: '/' :: x) = .cur :: (PSpec.splitChar '/' x).filterMap RPath.piece := by
      unfold RPath.components
      simp [PSpec.splitChar]
    unfold walkName
    rw [this]
  unfold normalize declared at h
  rw [h1, h2] at h
  dsimp only at h
  cases hw : walk disk cwd ('.' :: '/' :: d) with
  | none => rw [hw] at h; cases h
  | some w =>
    rw [hw] at h
    have hempty : ofWalk w = [] := by
      cases hx : ofWalk w with
      | nil => rfl
      | cons p t =>
        exfalso
        obtain ⟨w1, _, w3⟩ := ofWalk_spec w
        obtain ⟨hp, hn⟩ := w3 p.1 p.2 ((IMap.get?_some_iff_mem w1).2 (by rw [hx]; exact List.mem_cons_self))
        unfold walk at hw
        obtain ⟨l, _, rfl⟩ := Option.map_eq_some_iff.1 hw
        obtain ⟨rel, _, he⟩ := List.mem_map.1 hp
        rw [← he, List.cons_append, List.cons_append, hcur] at hn
        cases hn
    rw [Option.map_some, Option.map_some, hempty] at h
    have : ord [] = [] := (ho []).eq_nil
    rw [this] at h
    cases h
    rfl

/-! ### cases that meet the hypotheses -/

example : normalize (fun m => m) (fun _ => none) [] ⟨none, some (.array [['b', '/', 'x'], ['y']]), none⟩ =
    some [(['x'], [.normal ['b'], .normal ['x']]), (['y'], [.normal ['y']])] := by decide +kernel

/-- a package whose folder `b` has one file, in a project that has none, and in one that has another -/
example : let disk : Disk := fun l => if l = [['p'], ['b']] then some [[], [['x']]] else if l = [['q'], ['b']] then some [[], [['y']]] else none
    let r : Raw := ⟨some ['p'], none, some ['b']⟩
    normalize (fun m => m) disk [['r']] r = none ∧
    normalize (fun m => m) disk [['q']] r = some [(['b'], [.normal ['b']]), (['y'], [.normal ['b'], .normal ['y']])] ∧
    Declares disk [['p']] r ['x'] (['b'] ++ ['/', 'x']) := by
  refine ⟨by decide +kernel, by decide +kernel, ?_⟩
  have := @Declares.folder (fun l => if l = [['p'], ['b']] then some [[], [['x']]] else if l = [['q'], ['b']] then some [[], [['y']]] else none)
    [['p']] ⟨some ['p'], none, some ['b']⟩ ['b'] ['x'] [[], [['x']]] [['x']] rfl rfl (by decide +kernel) (by decide) rfl
  exact this

end Bins
end Oro
