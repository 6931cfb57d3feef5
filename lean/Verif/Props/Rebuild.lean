import Verif.Props.Scripts
set_option linter.unusedSectionVars false
/-!
# The order of the lifecycle phases
-/
namespace Oro
namespace Scripts

variable {N P S : Type} {g : Graph N P S} {pending : List Nat} {limit : Nat} {oks : Str → Nat → Bool} {b : Bool}

/-- a failure -/
def Failure : REv → Prop
  | .script _ (.finish _ false) => True
  | .bins false => True
  | _ => False

/-- in one phase, a failure is the last thing and ends it -/
theorem run_failure {f : Nat → Bool} (hn : pending.Nodup) {n : Nat} {s : St} (hr : Run g pending limit f n s) :
    (∀ before after i, s.log = before ++ .finish i false :: after → after = [] ∧ s.result = some false) ∧
    (s.result = some false → ∃ before i, i ∈ pending ∧ s.log = before ++ [.finish i false]) := by
  unfold Run at hr
  generalize h0 : init g pending = s0 at hr
  induction hr with
  | refl s => subst h0; simp [init]
  | @tail n s t u hs st ih =>
    subst h0
    have I := inv_run hn hs
    obtain ⟨ih1, ih2⟩ := ih rfl
    cases st with
    | start i hr hq hm =>
      refine ⟨?_, fun h => ?_⟩
      · intro before after j hl
        exfalso
        have : Ev.finish j false ∈ t.log ++ [.start i] := by
          rw [show t.log ++ [.start i] = before ++ .finish j false :: after from hl]; simp
        rw [List.mem_append, List.mem_singleton] at this
        rcases this with h | h
        · exact (I.live hr).nofail j h
        · cases h
      · have : t.result = some false := h
        rw [hr] at this
        cases this
    | finish i hr hi =>
      refine ⟨?_, fun h => ?_⟩
      · intro before after j hl
        have hl' : t.log ++ [.finish i (f i)] = before ++ .finish j false :: after := hl
        rcases List.eq_nil_or_concat after with rfl | ⟨a', x, rfl⟩
        · obtain ⟨_, h2⟩ := List.append_inj' hl' rfl
          refine ⟨rfl, ?_⟩
          have hf : f i = false := by
            have := List.head_eq_of_cons_eq h2
            injection this
          show (if f i then none else some false) = some false
          rw [hf]; rfl
        · exfalso
          rw [List.concat_eq_append] at hl'
          have h2 : t.log ++ [.finish i (f i)] = (before ++ .finish j false :: a') ++ [x] := by rw [hl']; simp
          have h3 := (List.append_inj' h2 rfl).1
          exact (I.live hr).nofail j (by rw [h3]; simp)
      · have hf : (if f i then none else some false) = some false := h
        have hf : f i = false := by
          cases hfi : f i with
          | true => rw [hfi] at hf; cases hf
          | false => rfl
        have hip : i ∈ pending := by
          have hst := ((I.live hr).started i).2 (.inl hi)
          obtain ⟨a, c, hac⟩ := List.append_of_mem hst
          exact (I.logok a _ c hac).1
        refine ⟨t.log, i, hip, ?_⟩
        show t.log ++ [.finish i (f i)] = _
        rw [hf]
    | done hr _ _ _ =>
      refine ⟨?_, fun h => by cases h⟩
      intro before after j hl
      exfalso
      have hl' : t.log = before ++ .finish j false :: after := hl
      exact (I.live hr).nofail j (by rw [hl']; simp)

/-- C73: the phases of a rebuild, with and without scripts, under the names that package.json has for them. -/
theorem C73_events : rebuildPhases false = [.scripts "preinstall".toList, .bins, .scripts "install".toList, .scripts "postinstall".toList] ∧
    rebuildPhases true = [.bins] := by decide +kernel

/-- **C73**: with scripts switched off no script is run: all that happens is that commands are linked. -/
theorem C73_ignored (log : List REv) (r : Option Bool) (h : Rebuild g pending limit oks b (rebuildPhases true) log r) :
    (log = [] ∧ r = none) ∨ (log = [.bins b] ∧ r = some b) := by
  change Rebuild g pending limit oks b [.bins] log r at h
  cases h with
  | linking => exact .inl ⟨rfl, rfl⟩
  | notLinked hb => subst hb; exact .inr ⟨rfl, rfl⟩
  | linked hb h =>
    subst hb
    cases h
    exact .inr ⟨rfl, rfl⟩

/-- what is seen of one phase, seen in the whole -/
theorem map_split {event : Str} {l : List Ev} {before after : List REv} {e : REv}
    (h : l.map (REv.script event) = before ++ e :: after) :
    ∃ x y z, l = x ++ y :: z ∧ before = x.map (.script event) ∧ e = .script event y ∧ after = z.map (.script event) := by
  obtain ⟨x, w, rfl, rfl, h2⟩ := List.map_eq_append_iff.1 h
  obtain ⟨y, z, rfl, rfl, rfl⟩ := List.map_eq_cons_iff.1 h2
  exact ⟨x, y, z, rfl, rfl, rfl, rfl⟩

/-- the place of an event in a list of two parts -/
theorem append_split {A B before after : List REv} {e : REv} (h : A ++ B = before ++ e :: after) :
    (∃ z, A = before ++ e :: z ∧ after = z ++ B) ∨ (∃ y, before = A ++ y ∧ B = y ++ e :: after) := by
  rcases List.append_eq_append_iff.1 h with ⟨y, h1, h2⟩ | ⟨y, h1, h2⟩
  · exact .inr ⟨y, h1, h2⟩
  · cases y with
    | nil =>
      right
      exact ⟨[], by simpa using h1.symm, by simpa using h2.symm⟩
    | cons a y =>
      rw [List.cons_append] at h2
      injection h2 with h3 h4
      subst h3
      exact .inl ⟨y, h1, h4⟩

/-- a failure is the last thing, and it is the result -/
theorem C73_failure (hn : pending.Nodup) (ps : List Phase) (log : List REv) (r : Option Bool)
    (h : Rebuild g pending limit oks b ps log r) :
    (∀ before e after, log = before ++ e :: after → Failure e → after = [] ∧ r = some false) ∧
    (r = some false → ∃ before e, log = before ++ [e] ∧ Failure e) := by
  induction h with
  | done => exact ⟨by intro before e after h; simp at h, fun h => by cases h⟩
  | @running n s event ps hs hr =>
    refine ⟨?_, fun h => by cases h⟩
    intro before e after hl hf
    obtain ⟨x, y, z, h1, rfl, rfl, rfl⟩ := map_split hl
    exfalso
    cases y with
    | start i => exact hf
    | finish i k =>
      cases k with
      | true => exact hf
      | false =>
        have := (run_failure hn hs).1 _ _ _ h1
        rw [hr] at this
        cases this.2
  | @failed n s event ps hs hr =>
    refine ⟨?_, fun _ => ?_⟩
    · intro before e after hl hf
      obtain ⟨x, y, z, h1, rfl, rfl, rfl⟩ := map_split hl
      cases y with
      | start i => exact hf.elim
      | finish i k =>
        cases k with
        | true => exact hf.elim
        | false =>
          obtain ⟨rfl, _⟩ := (run_failure hn hs).1 _ _ _ h1
          exact ⟨rfl, rfl⟩
    · obtain ⟨before, i, _, hl⟩ := (run_failure hn hs).2 hr
      exact ⟨before.map (.script event), .script event (.finish i false), by rw [hl]; simp, trivial⟩
  | @next n s event ps log r hs hr _ ih =>
    refine ⟨?_, fun h => ?_⟩
    · intro before e after hl hf
      rcases append_split hl with ⟨z, h1, rfl⟩ | ⟨y, rfl, h2⟩
      · exfalso
        obtain ⟨x, y, z', h1', rfl, rfl, rfl⟩ := map_split h1
        cases y with
        | start i => exact hf
        | finish i k =>
          cases k with
          | true => exact hf
          | false =>
            have := (run_failure hn hs).1 _ _ _ h1'
            rw [hr] at this
            cases this.2
      · exact ih.1 _ _ _ h2 hf
    · obtain ⟨before, e, hl, hf⟩ := ih.2 h
      exact ⟨s.log.map (.script event) ++ before, e, by rw [hl]; simp, hf⟩
  | linking => exact ⟨by intro before e after h; simp at h, fun h => by cases h⟩
  | notLinked hb =>
    refine ⟨?_, fun _ => ⟨[], _, rfl, trivial⟩⟩
    intro before e after hl hf
    cases before with
    | nil => injection hl with _ h2; exact ⟨h2.symm, rfl⟩
    | cons a l => simp at hl
  | @linked ps log r hb _ ih =>
    refine ⟨?_, fun h => ?_⟩
    · intro before e after hl hf
      cases before with
      | nil =>
        injection hl with h1 h2
        subst h1
        exact hf.elim
      | cons a l =>
        injection hl with h1 h2
        exact ih.1 _ _ _ h2 hf
    · obtain ⟨before, e, hl, hf⟩ := ih.2 h
      exact ⟨.bins true :: before, e, by rw [hl]; rfl, hf⟩

/-- all of a phase that succeeded -/
theorem run_all {f : Nat → Bool} (hn : pending.Nodup) {n : Nat} {s : St} (hr : Run g pending limit f n s) (h : s.result = some true)
    (event : Str) (i : Nat) (hi : i ∈ pending) : REv.script event (.finish i true) ∈ s.log.map (REv.script event) :=
  List.mem_map.2 ⟨_, ((inv_run hn hr).good h).1 i hi |>.1, rfl⟩

/-- **C73**: with scripts switched on, at any time: when commands are linked, all packages are done with `preinstall`; when
an `install` script begins, the commands are linked; and when a `postinstall` script begins, all packages are done with
`install`. -/
theorem C73_order (hn : pending.Nodup) (log : List REv) (r : Option Bool)
    (h : Rebuild g pending limit oks b (rebuildPhases false) log r) (before after : List REv) (e : REv) (hl : log = before ++ e :: after) :
    (∀ k, e = .bins k → ∀ i ∈ pending, .script preinstall (.finish i true) ∈ before) ∧
    (∀ x, e = .script install x → .bins true ∈ before ∧ ∀ i ∈ pending, .script preinstall (.finish i true) ∈ before) ∧
    (∀ x, e = .script postinstall x → .bins true ∈ before ∧ ∀ i ∈ pending, .script preinstall (.finish i true) ∈ before ∧
      .script install (.finish i true) ∈ before) ∧
    (∀ event x, e = .script event x → event = preinstall ∨ event = install ∨ event = postinstall) := by
  have d1 : preinstall ≠ install := by decide
  have d2 : preinstall ≠ postinstall := by decide
  have d3 : install ≠ postinstall := by decide
  -- a script of an event: what is to be shown
  have aux : ∀ (event : Str) (x : Ev), (event = preinstall ∨ event = install ∨ event = postinstall) →
      (event = install → .bins true ∈ before ∧ ∀ i ∈ pending, .script preinstall (.finish i true) ∈ before) →
      (event = postinstall → .bins true ∈ before ∧ ∀ i ∈ pending, .script preinstall (.finish i true) ∈ before ∧
        .script install (.finish i true) ∈ before) → e = .script event x →
      (∀ k, e = .bins k → ∀ i ∈ pending, .script preinstall (.finish i true) ∈ before) ∧
      (∀ x, e = .script install x → .bins true ∈ before ∧ ∀ i ∈ pending, .script preinstall (.finish i true) ∈ before) ∧
      (∀ x, e = .script postinstall x → .bins true ∈ before ∧ ∀ i ∈ pending, .script preinstall (.finish i true) ∈ before ∧
        .script install (.finish i true) ∈ before) ∧
      (∀ event x, e = .script event x → event = preinstall ∨ event = install ∨ event = postinstall) := by
    intro event x h1 h2 h3 he
    subst he
    refine ⟨fun k hk => (by cases hk), fun y hy => ?_, fun y hy => ?_, fun ev y hy => ?_⟩
    · injection hy with hy; exact h2 hy
    · injection hy with hy; exact h3 hy
    · injection hy with hy; rw [← hy]; exact h1
  change Rebuild g pending limit oks b (.scripts preinstall :: .bins :: [.scripts install, .scripts postinstall]) log r at h
  cases h with
  | running hs hr =>
    obtain ⟨x, y, z, h1, rfl, he, rfl⟩ := map_split hl
    exact aux _ _ (.inl rfl) (fun h => absurd h d1) (fun h => absurd h d2) he
  | failed hs hr =>
    obtain ⟨x, y, z, h1, rfl, he, rfl⟩ := map_split hl
    exact aux _ _ (.inl rfl) (fun h => absurd h d1) (fun h => absurd h d2) he
  | @next n s _ _ log' _ hs hr h2 =>
    have hpre := run_all hn hs hr preinstall
    rcases append_split hl with ⟨z, h1, rfl⟩ | ⟨y, rfl, hl2⟩
    · obtain ⟨x, y, z, h1, rfl, he, rfl⟩ := map_split h1
      exact aux _ _ (.inl rfl) (fun h => absurd h d1) (fun h => absurd h d2) he
    · have hbin : ∀ k, e = .bins k → (∀ k, e = .bins k → ∀ i ∈ pending, .script preinstall (.finish i true) ∈ s.log.map (REv.script preinstall) ++ y) ∧
          (∀ x, e = .script install x → .bins true ∈ s.log.map (REv.script preinstall) ++ y ∧ ∀ i ∈ pending, .script preinstall (.finish i true) ∈ s.log.map (REv.script preinstall) ++ y) ∧
          (∀ x, e = .script postinstall x → .bins true ∈ s.log.map (REv.script preinstall) ++ y ∧ ∀ i ∈ pending, .script preinstall (.finish i true) ∈ s.log.map (REv.script preinstall) ++ y ∧
            .script install (.finish i true) ∈ s.log.map (REv.script preinstall) ++ y) ∧
          (∀ event x, e = .script event x → event = preinstall ∨ event = install ∨ event = postinstall) := by
        rintro k rfl
        exact ⟨fun _ _ i hi => List.mem_append_left _ (hpre i hi), fun x hx => (by cases hx), fun x hx => (by cases hx), fun ev x hx => (by cases hx)⟩
      cases h2 with
      | linking => simp at hl2
      | notLinked hb =>
        cases y with
        | nil => injection hl2 with h3 _; exact hbin _ h3.symm
        | cons a l => simp at hl2
      | @linked _ log2 _ hb h3 =>
        cases y with
        | nil => injection hl2 with h3 _; exact hbin _ h3.symm
        | cons a y =>
          injection hl2 with h4 hl3
          subst h4
          have hb : REv.bins true ∈ s.log.map (REv.script preinstall) ++ .bins true :: y := by simp
          have hp : ∀ i ∈ pending, .script preinstall (.finish i true) ∈ s.log.map (REv.script preinstall) ++ .bins true :: y :=
            fun i hi => List.mem_append_left _ (hpre i hi)
          cases h3 with
          | running _ _ =>
            obtain ⟨x, y', z, h1, _, he, rfl⟩ := map_split hl3
            exact aux _ _ (.inr (.inl rfl)) (fun _ => ⟨hb, hp⟩) (fun h => absurd h d3) he
          | failed _ _ =>
            obtain ⟨x, y', z, h1, _, he, rfl⟩ := map_split hl3
            exact aux _ _ (.inr (.inl rfl)) (fun _ => ⟨hb, hp⟩) (fun h => absurd h d3) he
          | @next n3 s3 _ _ log3 _ hs3 hr3 h4 =>
            rcases append_split hl3 with ⟨z, h1, rfl⟩ | ⟨y2, rfl, hl4⟩
            · obtain ⟨x, y', z, h1, _, he, rfl⟩ := map_split h1
              exact aux _ _ (.inr (.inl rfl)) (fun _ => ⟨hb, hp⟩) (fun h => absurd h d3) he
            · have hin : ∀ i ∈ pending, .script install (.finish i true) ∈
                  s.log.map (REv.script preinstall) ++ .bins true :: (s3.log.map (REv.script install) ++ y2) := by
                intro i hi
                have := run_all hn hs3 hr3 install i hi
                simp only [List.mem_append, List.mem_cons]
                exact .inr (.inr (.inl this))
              have fin : ∀ x, e = .script postinstall x → _ := fun x he =>
                aux postinstall x (.inr (.inr rfl)) (fun h => absurd h.symm d3) (fun _ => ⟨hb, fun i hi => ⟨hp i hi, hin i hi⟩⟩) he
              cases h4 with
              | running _ _ =>
                obtain ⟨x, y', z, h1, _, he, rfl⟩ := map_split hl4
                exact fin _ he
              | failed _ _ =>
                obtain ⟨x, y', z, h1, _, he, rfl⟩ := map_split hl4
                exact fin _ he
              | @next n5 s5 _ _ log5 _ hs5 hr5 h6 =>
                cases h6
                rw [List.append_nil] at hl4
                obtain ⟨x, y', z, h1, _, he, rfl⟩ := map_split hl4
                exact fin _ he

/-- how often a package is begun in one phase -/
theorem count_map (event event' : Str) (i : Nat) (l : List Ev) :
    (l.map (REv.script event)).count (.script event' (.start i)) = if event = event' then l.count (.start i) else 0 := by
  split
  · rename_i h
    subst h
    induction l with
    | nil => rfl
    | cons a l ih =>
      rw [List.map_cons, List.count_cons, List.count_cons, ih]
      simp
  · rename_i h
    rw [List.count_eq_zero]
    intro hm
    obtain ⟨x, _, hx⟩ := List.mem_map.1 hm
    injection hx with h1 _
    exact h h1

/-- **C73**: no package is begun twice for the same event; and when everything succeeds, the commands were linked, and each
pending package was begun exactly once for each of the three events and finished. -/
theorem C73_once (hn : pending.Nodup) (log : List REv) (r : Option Bool) (h : Rebuild g pending limit oks b (rebuildPhases false) log r) :
    (∀ event i, log.count (.script event (.start i)) ≤ 1) ∧
    (r = some true → .bins true ∈ log ∧ ∀ event, event = preinstall ∨ event = install ∨ event = postinstall → ∀ i ∈ pending,
      log.count (.script event (.start i)) = 1 ∧ .script event (.finish i true) ∈ log) := by
  have gen : ∀ (ps : List Phase) (log : List REv) (r : Option Bool), Rebuild g pending limit oks b ps log r → ps.Nodup →
      (∀ event i, log.count (.script event (.start i)) ≤ if Phase.scripts event ∈ ps then 1 else 0) ∧
      (r = some true → (Phase.bins ∈ ps → .bins true ∈ log) ∧ ∀ event, Phase.scripts event ∈ ps → ∀ i ∈ pending,
        log.count (.script event (.start i)) = 1 ∧ .script event (.finish i true) ∈ log) := by
    intro ps log r h
    induction h with
    | done => intro _; exact ⟨by simp, fun _ => ⟨by simp, by simp⟩⟩
    | @running n s event ps hs hr =>
      intro _
      refine ⟨?_, fun h => by cases h⟩
      intro ev i
      rw [count_map]
      split
      · rename_i h; subst h
        rw [if_pos List.mem_cons_self]
        exact (C30_once g pending hn limit _ _ _ hs).1 i
      · exact Nat.zero_le _
    | @failed n s event ps hs hr =>
      intro _
      refine ⟨?_, fun h => by cases h⟩
      intro ev i
      rw [count_map]
      split
      · rename_i h; subst h
        rw [if_pos List.mem_cons_self]
        exact (C30_once g pending hn limit _ _ _ hs).1 i
      · exact Nat.zero_le _
    | @next n s event ps log r hs hr _ ih =>
      intro hnd
      obtain ⟨hnot, hnd'⟩ := List.nodup_cons.1 hnd
      obtain ⟨ih1, ih2⟩ := ih hnd'
      obtain ⟨c1, c2, c3⟩ := C30_once g pending hn limit _ _ _ hs
      refine ⟨?_, fun h => ?_⟩
      · intro ev i
        rw [List.count_append, count_map]
        have := ih1 ev i
        by_cases he : event = ev
        · subst he
          rw [if_neg hnot] at this
          rw [if_pos rfl, if_pos List.mem_cons_self]
          have := c1 i
          omega
        · rw [if_neg he]
          have hiff : (Phase.scripts ev ∈ Phase.scripts event :: ps) ↔ Phase.scripts ev ∈ ps := by
            rw [List.mem_cons]
            constructor
            · rintro (h | h)
              · injection h with h; exact absurd h.symm he
              · exact h
            · exact .inr
          rw [if_congr hiff rfl rfl]
          omega
      · obtain ⟨b1, b2⟩ := ih2 h
        refine ⟨fun hm => ?_, ?_⟩
        · rcases List.mem_cons.1 hm with h | h
          · cases h
          · exact List.mem_append_right _ (b1 h)
        · intro ev hev i hi
          by_cases he : event = ev
          · subst he
            have := ih1 event i
            rw [if_neg hnot] at this
            rw [List.count_append, count_map, if_pos rfl]
            obtain ⟨h1, _⟩ := c3 hr i hi
            exact ⟨by omega, List.mem_append_left _ (run_all hn hs hr event i hi)⟩
          · have hev' : Phase.scripts ev ∈ ps := by
              rcases List.mem_cons.1 hev with h | h
              · injection h with h; exact absurd h.symm he
              · exact h
            obtain ⟨h1, h2⟩ := b2 ev hev' i hi
            rw [List.count_append, count_map, if_neg he]
            exact ⟨by omega, List.mem_append_right _ h2⟩
    | linking => intro _; exact ⟨by simp, fun h => by cases h⟩
    | notLinked _ => intro _; exact ⟨by simp, fun h => by cases h⟩
    | @linked ps log r hb _ ih =>
      intro hnd
      obtain ⟨hnot, hnd'⟩ := List.nodup_cons.1 hnd
      obtain ⟨ih1, ih2⟩ := ih hnd'
      have hc : ∀ ev i, (REv.bins true :: log).count (.script ev (.start i)) = log.count (.script ev (.start i)) := by
        intro ev i; simp
      have hm : ∀ ev, Phase.scripts ev ∈ Phase.bins :: ps ↔ Phase.scripts ev ∈ ps := by intro ev; simp
      refine ⟨?_, fun h => ?_⟩
      · intro ev i
        rw [hc, if_congr (hm ev) rfl rfl]
        exact ih1 ev i
      · refine ⟨fun _ => List.mem_cons_self, ?_⟩
        intro ev hev i hi
        rw [hc]
        obtain ⟨h1, h2⟩ := (ih2 h).2 ev ((hm ev).1 hev) i hi
        exact ⟨h1, List.mem_cons_of_mem _ h2⟩
  obtain ⟨h1, h2⟩ := gen _ _ _ h (by decide)
  refine ⟨?_, fun hr => ?_⟩
  · intro ev i
    refine Nat.le_trans (h1 ev i) ?_
    split <;> omega
  · obtain ⟨h3, h4⟩ := h2 hr
    refine ⟨h3 (by decide), ?_⟩
    rintro ev (rfl | rfl | rfl) i hi <;> exact h4 _ (by decide) i hi

/-! ### a run to the end, and one that fails -/

example : ∃ log, Rebuild Ex.g Ex.pending 2 (fun _ => Ex.ok) true (rebuildPhases false) log (some true) ∧ Ex.pending.Nodup ∧ log.length = 19 := by
  obtain ⟨s, h1, h2, h3⟩ := Ex.run Ex.ok rfl rfl rfl
  refine ⟨_, .next h1 h2 (.linked rfl (.next h1 h2 (.next h1 h2 .done))), by decide, ?_⟩
  simp [h3]

example : Rebuild Ex.g Ex.pending 2 (fun _ => Ex.ok) false (rebuildPhases false)
    ([REv.script preinstall (.start 4), .script preinstall (.start 3), .script preinstall (.finish 3 true), .script preinstall (.finish 4 true),
      .script preinstall (.start 1), .script preinstall (.finish 1 true)] ++ [.bins false]) (some false) := by
  obtain ⟨s, h1, h2, h3⟩ := Ex.run Ex.ok rfl rfl rfl
  have := @Rebuild.next _ _ _ Ex.g Ex.pending 2 (fun _ => Ex.ok) false 7 s preinstall [.bins, .scripts install, .scripts postinstall] _ _ h1 h2 (.notLinked rfl)
  rw [h3] at this
  exact this

end Scripts
end Oro
