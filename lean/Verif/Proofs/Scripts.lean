import Verif.Spec.Scripts
import Mathlib.Logic.Relation
set_option linter.unusedSectionVars false
namespace Oro
namespace Scripts
open Relation
variable {N P S : Type}

def Adj (es : List (Edge S)) (a b : Nat) : Prop := ∃ e ∈ es, e.src = a ∧ e.dst = b

theorem connects_iff (es : List (Edge S)) : ∀ i j, connects es i j = true ↔ ReflTransGen (Adj es) i j := by
  induction es with
  | nil =>
    intro i j
    simp only [connects, beq_iff_eq]
    constructor
    · rintro rfl; exact .refl
    · intro h
      induction h with
      | refl => rfl
      | tail _ h _ => obtain ⟨e, he, _⟩ := h; simp at he
  | cons e es ih =>
    have mono : ∀ a b, ReflTransGen (Adj es) a b → ReflTransGen (Adj (e :: es)) a b := by
      intro a b h
      induction h with
      | refl => exact .refl
      | tail _ h ih =>
        obtain ⟨f, hf, hh⟩ := h
        exact ih.tail ⟨f, List.mem_cons_of_mem _ hf, hh⟩
    intro i j
    simp only [connects, Bool.or_eq_true, Bool.and_eq_true, ih]
    constructor
    · rintro (h | ⟨h1, h2⟩)
      · exact mono _ _ h
      · exact (mono _ _ h1).trans (.head ⟨e, List.mem_cons_self, rfl, rfl⟩ (mono _ _ h2))
    · intro h
      induction h using ReflTransGen.head_induction_on with
      | refl => exact .inl .refl
      | head hab _ ihh =>
        obtain ⟨f, hf, rfl, rfl⟩ := hab
        rcases List.mem_cons.1 hf with rfl | hf
        · rcases ihh with h | ⟨_, h⟩
          · exact .inr ⟨.refl, h⟩
          · exact .inr ⟨.refl, h⟩
        · have hs : ReflTransGen (Adj es) f.src f.dst := .single ⟨f, hf, rfl, rfl⟩
          rcases ihh with h | ⟨h1, h2⟩
          · exact .inl (hs.trans h)
          · exact .inr ⟨hs.trans h1, h2⟩

theorem dependsOn_iff (g : Graph N P S) (i j : Nat) (h : i ≠ j) : DependsOn g i j ↔ connects g.edges i j = true := by
  rw [connects_iff]
  constructor
  · intro h
    clear * - h
    induction h with
    | direct h => exact .single h
    | trans _ _ h1 h2 => exact h1.trans h2
  · intro hr
    rcases reflTransGen_iff_eq_or_transGen.1 hr with rfl | ht
    · exact absurd rfl h
    · clear * - ht
      induction ht with
      | single h => exact .direct h
      | tail _ h ih => exact .trans ih (.direct h)

theorem mem_requires {g : Graph N P S} {pending : List Nat} {i j : Nat} :
    j ∈ requires g pending i ↔ j ∈ pending ∧ j ≠ i ∧ DependsOn g i j := by
  simp only [requires, List.mem_filter, Bool.and_eq_true, bne_iff_ne, ne_eq]
  constructor
  · rintro ⟨h, h1, h2⟩; exact ⟨h, h1, (dependsOn_iff g i j (Ne.symm h1)).2 h2⟩
  · rintro ⟨h, h1, h2⟩; exact ⟨h, h1, (dependsOn_iff g i j (Ne.symm h1)).1 h2⟩

theorem mem_dependents {g : Graph N P S} {pending : List Nat} {i j : Nat} :
    j ∈ dependents g pending i ↔ j ∈ pending ∧ j ≠ i ∧ DependsOn g j i := by
  simp only [dependents, List.mem_filter, Bool.and_eq_true, bne_iff_ne, ne_eq]
  constructor
  · rintro ⟨h, h1, h2⟩; exact ⟨h, h1, (dependsOn_iff g j i h1).2 h2⟩
  · rintro ⟨h, h1, h2⟩; exact ⟨h, h1, (dependsOn_iff g j i h1).1 h2⟩

/-! ### releasing the dependents -/

theorem release_fold (i : Nat) : ∀ (ds : List Nat) (rem : Nat → Option (List Nat)) (q : List Nat), ds.Nodup →
    (∀ k, (ds.foldl (release i) (rem, q)).1 k =
      if k ∈ ds then (rem k).bind fun r => if r.filter (· != i) = [] then none else some (r.filter (· != i)) else rem k) ∧
    (ds.foldl (release i) (rem, q)).2 = q ++ ds.filter fun k => (rem k).any fun r => decide (r.filter (· != i) = []) := by
  intro ds
  induction ds with
  | nil => intro rem q _; exact ⟨fun k => by simp, by simp⟩
  | cons d ds ih =>
    intro rem q hn
    rw [List.nodup_cons] at hn
    have key : ∀ k, k ≠ d → (release i (rem, q) d).1 k = rem k := by
      intro k hk
      cases h : rem d with
      | none => simp [release, h]
      | some r =>
        simp only [release, h]
        split <;> simp [upd, hk]
    have hd : (release i (rem, q) d).1 d =
        (rem d).bind fun r => if r.filter (· != i) = [] then none else some (r.filter (· != i)) := by
      cases h : rem d with
      | none => simp [release, h]
      | some r =>
        simp only [release, h, Option.bind_some]
        split <;> simp [upd]
    have hq : (release i (rem, q) d).2 =
        q ++ if (rem d).any (fun r => decide (r.filter (· != i) = [])) then [d] else [] := by
      cases h : rem d with
      | none => simp [release, h]
      | some r =>
        simp only [release, h, Option.any_some, decide_eq_true_eq]
        split <;> simp
    obtain ⟨h1, h2⟩ := ih (release i (rem, q) d).1 (release i (rem, q) d).2 hn.2
    rw [List.foldl_cons]
    constructor
    · intro k
      rw [h1 k]
      by_cases hk : k = d
      · subst hk
        rw [if_neg hn.1, hd, if_pos List.mem_cons_self]
      · rw [key k hk]
        simp only [List.mem_cons, hk, false_or]
    · rw [h2, hq, List.append_assoc]
      congr 1
      rw [List.filter_cons]
      have : ds.filter (fun k => ((release i (rem, q) d).1 k).any fun r => decide (r.filter (· != i) = [])) =
          ds.filter (fun k => (rem k).any fun r => decide (r.filter (· != i) = [])) := by
        apply List.filter_congr
        intro k hk
        rw [key k (fun hkd => hn.1 (hkd ▸ hk))]
      rw [this]
      split <;> simp

/-! ### the invariant -/

def finished (log : List Ev) (i : Nat) : Prop := Ev.finish i true ∈ log

instance (log : List Ev) (i : Nat) : Decidable (finished log i) := by unfold finished; infer_instance

/-- everything a package waits for has finished -/
def ready (g : Graph N P S) (pending : List Nat) (log : List Ev) (i : Nat) : Prop :=
  ∀ j ∈ requires g pending i, finished log j

/-- `log` is orderly: whenever something was started it was ready, whenever something finished it had been started -/
def LogOk (g : Graph N P S) (pending : List Nat) (oks : Nat → Bool) (log : List Ev) : Prop :=
  ∀ pre e post, log = pre ++ e :: post → match e with
    | .start i => i ∈ pending ∧ ready g pending pre i
    | .finish i b => b = oks i ∧ .start i ∈ pre

/-- while the phase is going on -/
structure Live (g : Graph N P S) (pending : List Nat) (s : St) : Prop where
  part : ∀ i ∈ pending, (s.queue ++ s.running).count i + (if finished s.log i then 1 else 0)
        + (if (s.rem i).isSome then 1 else 0) = 1
  rdy : ∀ i ∈ s.queue ++ s.running, i ∈ pending ∧ ready g pending s.log i
  fin : ∀ i, finished s.log i → i ∈ pending
  rem : ∀ i r, s.rem i = some r → i ∈ pending ∧ r ≠ [] ∧
    ∀ j, j ∈ r ↔ j ∈ requires g pending i ∧ ¬ finished s.log j
  started : ∀ i, Ev.start i ∈ s.log ↔ i ∈ s.running ∨ finished s.log i
  closed : s.closed = true ↔ ∀ i ∈ pending, s.rem i = none
  nofail : ∀ i, Ev.finish i false ∉ s.log

structure Inv (g : Graph N P S) (pending : List Nat) (limit : Nat) (oks : Nat → Bool) (s : St) : Prop where
  logok : LogOk g pending oks s.log
  starts : ∀ i, s.log.count (.start i) ≤ 1
  width : limit ≠ 0 → s.running.length ≤ limit
  live : s.result = none → Live g pending s
  good : s.result = some true → (∀ i ∈ pending, finished s.log i ∧ Ev.start i ∈ s.log) ∧ ∀ i, Ev.finish i false ∉ s.log
  bad : s.result = some false → ∃ i ∈ pending, Ev.finish i false ∈ s.log

theorem remEmpty_iff (pending : List Nat) (rem : Nat → Option (List Nat)) :
    remEmpty pending rem = true ↔ ∀ i ∈ pending, rem i = none := by
  simp [remEmpty, Option.isNone_iff_eq_none]

theorem LogOk.append {g : Graph N P S} {pending : List Nat} {oks : Nat → Bool} {log : List Ev} (h : LogOk g pending oks log)
    (e : Ev) (he : match e with
      | .start i => i ∈ pending ∧ ready g pending log i
      | .finish i b => b = oks i ∧ .start i ∈ log) : LogOk g pending oks (log ++ [e]) := by
  intro pre e' post hp
  rcases List.eq_nil_or_concat post with rfl | ⟨post', x, rfl⟩
  · have := List.append_inj' hp rfl
    obtain ⟨rfl, h2⟩ := this
    cases h2
    exact he
  · rw [List.concat_eq_append] at hp
    have h2 : log ++ [e] = (pre ++ e' :: post') ++ [x] := by rw [hp]; simp
    have := List.append_inj' h2 rfl
    exact h pre e' post' this.1

theorem inv_init (g : Graph N P S) (pending : List Nat) (hn : pending.Nodup) (limit : Nat) (oks : Nat → Bool) :
    Inv g pending limit oks (init g pending) := by
  refine ⟨?_, ?_, ?_, ?_, ?_, ?_⟩
  · intro pre e post h
    simp [init] at h
  · simp [init]
  · intro _; simp [init]
  · intro _
    refine ⟨?_, ?_, ?_, ?_, ?_, ?_, ?_⟩
    · intro i hi
      simp only [init, List.append_nil, finished, List.not_mem_nil, if_false, hi, true_and]
      by_cases h : requires g pending i = []
      · rw [List.count_filter (by simp [h]), List.count_eq_one_of_mem hn hi]
        simp [h]
      · rw [List.count_eq_zero_of_not_mem (by simp [h])]
        simp [h]
    · intro i hi
      simp only [init, List.append_nil, List.mem_filter, beq_iff_eq] at hi
      refine ⟨hi.1, ?_⟩
      intro j hj
      rw [hi.2] at hj; simp at hj
    · intro i h; simp [finished, init] at h
    · intro i r h
      simp only [init] at h
      split at h
      · rename_i hc
        cases h
        refine ⟨hc.1, hc.2, fun j => ?_⟩
        simp [finished, init]
      · cases h
    · intro i; simp [init, finished]
    · simp only [init]; exact remEmpty_iff _ _
    · intro i; simp [init]
  · intro h; simp [init] at h
  · intro h; simp [init] at h

theorem finished_start {log : List Ev} {i j : Nat} : finished (log ++ [.start i]) j ↔ finished log j := by
  simp [finished]

theorem finished_finish {log : List Ev} {i j : Nat} : finished (log ++ [.finish i true]) j ↔ finished log j ∨ j = i := by
  simp [finished]

theorem inv_step (g : Graph N P S) (pending : List Nat) (hn : pending.Nodup) (limit : Nat) (oks : Nat → Bool) (s t : St)
    (h : Inv g pending limit oks s) (st : Step g pending limit oks s t) : Inv g pending limit oks t := by
  cases st with
  | start i hr hi hm =>
    have L := h.live hr
    have hip := L.rdy i (List.mem_append_left _ hi)
    have hns : Ev.start i ∉ s.log := by
      intro hs
      have hp := L.part i hip.1
      have hq : 1 ≤ s.queue.count i := List.one_le_count_iff.2 hi
      rw [List.count_append] at hp
      rcases (L.started i).1 hs with hx | hx
      · have : 1 ≤ s.running.count i := List.one_le_count_iff.2 hx
        omega
      · rw [if_pos hx] at hp; omega
    have hperm : (s.queue.erase i ++ i :: s.running).Perm (s.queue ++ s.running) :=
      List.perm_middle.trans ((List.perm_cons_erase hi).symm.append_right _)
    refine ⟨h.logok.append _ hip, ?_, ?_, ?_, ?_, ?_⟩
    · intro j
      simp only [List.count_append, List.count_cons, List.count_nil]
      by_cases hj : j = i
      · subst hj
        rw [List.count_eq_zero_of_not_mem hns]; simp
      · have := h.starts j
        simp [show ¬ i = j from fun h => hj h.symm]
        exact this
    · intro hl
      rcases hm with hm | hm
      · exact absurd hm hl
      · simp only [List.length_cons]; omega
    · intro _
      refine ⟨?_, ?_, ?_, ?_, ?_, ?_, ?_⟩
      · intro j hj
        simp only [hperm.count_eq, finished_start]
        exact L.part j hj
      · intro j hj
        obtain ⟨h1, h2⟩ := L.rdy j (hperm.mem_iff.1 hj)
        exact ⟨h1, fun k hk => finished_start.2 (h2 k hk)⟩
      · intro j hj; exact L.fin j (finished_start.1 hj)
      · intro j r hj
        obtain ⟨h1, h2, h3⟩ := L.rem j r hj
        exact ⟨h1, h2, fun k => by simp only [finished_start]; exact h3 k⟩
      · intro j
        simp only [List.mem_append, List.mem_cons, finished_start, L.started j, Ev.start.injEq]
        tauto
      · exact L.closed
      · intro j; simp [L.nofail j]
    · intro hg; rw [hr] at hg; cases hg
    · intro hg; rw [hr] at hg; cases hg
  | finish i hr hi =>
    have L := h.live hr
    have hip := L.rdy i (List.mem_append_right _ hi)
    have hst : Ev.start i ∈ s.log := (L.started i).2 (.inl hi)
    have hlog : LogOk g pending oks (s.log ++ [.finish i (oks i)]) := h.logok.append _ ⟨rfl, hst⟩
    have hcount : ∀ j, (s.log ++ [Ev.finish i (oks i)]).count (.start j) ≤ 1 := by
      intro j
      rw [List.count_append]
      have := h.starts j
      simp
      exact this
    have hw : limit ≠ 0 → (s.running.erase i).length ≤ limit := by
      intro hl
      have := h.width hl
      have := List.length_erase_le (l := s.running) (a := i)
      omega
    refine ⟨hlog, hcount, hw, ?_, ?_, ?_⟩
    · intro hres
      have hok : oks i = true := by
        simp only [finish] at hres
        split at hres
        · assumption
        · cases hres
      have hnd : (dependents g pending i).Nodup := hn.filter _
      obtain ⟨F1, F2⟩ := release_fold i _ s.rem s.queue hnd
      have hilog : (finish g pending (oks i) i s).log = s.log ++ [.finish i true] := by simp [finish, hok]
      have hirem : ∀ k, (finish g pending (oks i) i s).rem k = _ := F1
      have hiq : (finish g pending (oks i) i s).queue = _ := F2
      have hirun : (finish g pending (oks i) i s).running = s.running.erase i := rfl
      have hiclosed : (finish g pending (oks i) i s).closed =
        (s.closed || remEmpty pending (finish g pending (oks i) i s).rem) := rfl
      generalize finish g pending (oks i) i s = t at *
      have hi1 := L.part i hip.1
      rw [List.count_append] at hi1
      have hir : 1 ≤ s.running.count i := List.one_le_count_iff.2 hi
      have hnfi : ¬ finished s.log i := by
        intro hf; rw [if_pos hf] at hi1; omega
      have hnri : s.rem i = none := by
        cases hx : s.rem i with
        | none => rfl
        | some r => simp [hx] at hi1; omega
      rw [if_neg hnfi, hnri] at hi1
      simp only [Option.isSome_none, Bool.false_eq_true, if_false] at hi1
      have hindep : i ∉ dependents g pending i := fun hx => (mem_dependents.1 hx).2.1 rfl
      -- what was added to the queue
      have hadd : ∀ k, k ∈ (dependents g pending i).filter
          (fun k => (s.rem k).any fun r => decide (r.filter (· != i) = [])) →
          k ∈ pending ∧ ready g pending (s.log ++ [.finish i true]) k := by
        intro k hk
        rw [List.mem_filter] at hk
        obtain ⟨hk1, hk2⟩ := hk
        cases hx : s.rem k with
        | none => rw [hx] at hk2; simp at hk2
        | some r =>
          rw [hx] at hk2
          simp only [Option.any_some, decide_eq_true_eq, List.filter_eq_nil_iff, bne_iff_ne, ne_eq, not_not] at hk2
          obtain ⟨h1, _, h3⟩ := L.rem k r hx
          refine ⟨h1, fun j hj => finished_finish.2 ?_⟩
          by_cases hf : finished s.log j
          · exact .inl hf
          · exact .inr (hk2 j ((h3 j).2 ⟨hj, hf⟩))
      refine ⟨?_, ?_, ?_, ?_, ?_, ?_, ?_⟩
      · intro j hj
        rw [hiq, hirun, hilog, hirem j]
        simp only [List.count_append, finished_finish]
        by_cases hji : j = i
        · subst hji
          rw [if_neg hindep, hnri]
          have : (List.filter (fun k => Option.any (fun r => decide (r.filter (· != j) = [])) (s.rem k))
              (dependents g pending j)).count j = 0 :=
            List.count_eq_zero_of_not_mem fun hx => hindep (List.mem_filter.1 hx).1
          rw [this, List.count_erase_self]
          simp
          omega
        · have hp := L.part j hj
          rw [List.count_append] at hp
          rw [List.count_erase_of_ne hji]
          simp only [hji, or_false]
          by_cases hd : j ∈ dependents g pending i
          · rw [if_pos hd]
            cases hx : s.rem j with
            | none =>
              rw [List.count_eq_zero_of_not_mem (a := j) (l := List.filter _ _) (by simp [hx])]
              rw [hx] at hp
              simpa using hp
            | some r =>
              rw [hx] at hp
              simp only [Option.bind_some]
              by_cases he : r.filter (· != i) = []
              · rw [List.count_filter (by simp only [hx, Option.any_some, decide_eq_true_eq]; exact he),
                  List.count_eq_one_of_mem hnd hd]
                simp only [he, if_true, Option.isSome_some, Option.isSome_none, Bool.false_eq_true, if_false] at hp ⊢
                omega
              · rw [List.count_eq_zero_of_not_mem (a := j) (l := List.filter _ _) (by
                    rw [List.mem_filter]
                    rintro ⟨_, h2⟩
                    simp only [hx, Option.any_some, decide_eq_true_eq] at h2
                    exact he h2)]
                simp only [he, if_false]
                simpa using hp
          · rw [if_neg hd, List.count_eq_zero_of_not_mem (a := j) (l := List.filter _ _)
              (fun hx => hd (List.mem_filter.1 hx).1)]
            omega
      · intro j hj
        rw [hiq, hirun, List.append_assoc, List.mem_append, List.mem_append] at hj
        rw [hilog]
        have old : j ∈ s.queue ++ s.running → j ∈ pending ∧ ready g pending (s.log ++ [.finish i true]) j := by
          intro hx
          obtain ⟨h1, h2⟩ := L.rdy j hx
          exact ⟨h1, fun k hk => finished_finish.2 (.inl (h2 k hk))⟩
        rcases hj with hj | hj | hj
        · exact old (List.mem_append_left _ hj)
        · exact hadd j hj
        · exact old (List.mem_append_right _ (List.mem_of_mem_erase hj))
      · intro j hj
        rw [hilog, finished_finish] at hj
        rcases hj with hj | rfl
        · exact L.fin j hj
        · exact hip.1
      · intro k r hk
        rw [hirem k] at hk
        rw [hilog]
        by_cases hd : k ∈ dependents g pending i
        · rw [if_pos hd] at hk
          cases hx : s.rem k with
          | none => rw [hx] at hk; simp at hk
          | some r0 =>
            rw [hx, Option.bind_some] at hk
            by_cases he : r0.filter (· != i) = []
            · rw [if_pos he] at hk; cases hk
            · rw [if_neg he] at hk
              cases hk
              obtain ⟨h1, _, h3⟩ := L.rem k r0 hx
              refine ⟨h1, he, fun j => ?_⟩
              rw [List.mem_filter, h3 j, finished_finish]
              simp only [bne_iff_ne, ne_eq]
              tauto
        · rw [if_neg hd] at hk
          obtain ⟨h1, h2, h3⟩ := L.rem k r hk
          refine ⟨h1, h2, fun j => ?_⟩
          rw [h3 j, finished_finish]
          constructor
          · rintro ⟨ha, hb⟩
            refine ⟨ha, ?_⟩
            rintro (hc | rfl)
            · exact hb hc
            · have := mem_requires.1 ha
              exact hd (mem_dependents.2 ⟨h1, Ne.symm this.2.1, this.2.2⟩)
          · rintro ⟨ha, hb⟩; exact ⟨ha, fun hc => hb (.inl hc)⟩
      · intro j
        rw [hilog, hirun]
        simp only [List.mem_append, List.mem_singleton, reduceCtorEq, or_false, L.started j, finished_finish]
        by_cases hji : j = i
        · subst hji; simp [hi]
        · simp [List.mem_erase_of_ne hji, hji]
      · rw [hiclosed, Bool.or_eq_true, remEmpty_iff, L.closed]
        constructor
        · rintro (hc | hc)
          · intro k hk
            rw [hirem k, hc k hk]
            simp
          · exact hc
        · exact .inr
      · intro j
        rw [hilog]
        simp [L.nofail j]
    · intro hg
      simp only [finish] at hg
      split at hg <;> cases hg
    · intro hb
      refine ⟨i, hip.1, ?_⟩
      simp only [finish] at hb ⊢
      split at hb
      · cases hb
      · rename_i hx
        simp only [Bool.not_eq_true] at hx
        rw [hx]; simp
  | done hr hq hrun hc =>
    have L := h.live hr
    refine ⟨h.logok, h.starts, h.width, ?_, ?_, ?_⟩
    · intro hx; cases hx
    · intro _
      refine ⟨fun i hi => ?_, L.nofail⟩
      have hp := L.part i hi
      rw [hq, hrun, L.closed.1 hc i hi] at hp
      simp only [List.append_nil, List.count_nil, Option.isSome_none, Bool.false_eq_true, if_false] at hp
      have : finished s.log i := by
        by_contra hx
        rw [if_neg hx] at hp; omega
      exact ⟨this, (L.started i).2 (.inr this)⟩
    · intro hx; cases hx

theorem inv_run {g : Graph N P S} {pending : List Nat} (hn : pending.Nodup) {limit : Nat} {oks : Nat → Bool} {n : Nat}
    {s : St} (h : Run g pending limit oks n s) : Inv g pending limit oks s := by
  have : ∀ a, Steps g pending limit oks n a s → Inv g pending limit oks a → Inv g pending limit oks s := by
    intro a hs hi
    clear h
    induction hs with
    | refl => exact hi
    | tail _ st ih => exact inv_step g pending hn limit oks _ _ (ih hi) st
  exact this _ h (inv_init g pending hn limit oks)

/-! ### termination -/

def unstarted (pending : List Nat) (log : List Ev) : Nat := pending.countP fun i => decide (Ev.start i ∉ log)

theorem countP_remove : ∀ (l : List Nat) (p : Nat → Bool) (i : Nat), l.Nodup → i ∈ l → p i = true →
    l.countP (fun j => p j && j != i) + 1 = l.countP p := by
  intro l p i
  induction l with
  | nil => intro _ h; simp at h
  | cons a l ih =>
    intro hn hi hp
    rw [List.nodup_cons] at hn
    by_cases ha : a = i
    · subst ha
      rw [List.countP_cons, List.countP_cons]
      have : l.countP (fun j => p j && j != a) = l.countP p := by
        apply List.countP_congr
        intro x hx
        have : x ≠ a := fun h => hn.1 (h ▸ hx)
        simp [this]
      rw [this]; simp [hp]
    · have hi' : i ∈ l := by
        rcases List.mem_cons.1 hi with h | h
        · exact absurd h.symm ha
        · exact h
      have := ih hn.2 hi' hp
      rw [List.countP_cons, List.countP_cons]
      simp only [bne_iff_ne, ne_eq, ha, not_false_eq_true, Bool.and_eq_true, and_true]
      omega

theorem steps_measure {g : Graph N P S} {pending : List Nat} (hn : pending.Nodup) {limit : Nat} {oks : Nat → Bool}
    {n : Nat} {s : St} (h : Run g pending limit oks n s) :
    n + 2 * unstarted pending s.log + s.running.length =
      2 * pending.length + (if s.result = some true then 1 else 0) := by
  unfold Run at h
  generalize ha : init g pending = a at h
  induction h with
  | refl =>
    subst ha
    simp [init, unstarted, List.countP_true]
  | @tail m x t u hst st ih =>
    subst ha
    have ih := ih rfl
    have I : Inv g pending limit oks t := inv_run hn hst
    cases st with
    | start i hr hi hm =>
      have L := I.live hr
      have hip := (L.rdy i (List.mem_append_left _ hi)).1
      have hns : Ev.start i ∉ t.log := by
        intro hs
        have I2 := (inv_step g pending hn limit oks _ _ I (.start t i hr hi hm)).starts i
        simp only [List.count_append, List.count_cons_self, List.count_nil] at I2
        have : 1 ≤ t.log.count (.start i) := List.one_le_count_iff.2 hs
        omega
      have hu : unstarted pending (t.log ++ [.start i]) + 1 = unstarted pending t.log := by
        unfold unstarted
        rw [← countP_remove pending (fun j => decide (Ev.start j ∉ t.log)) i hn hip (by simpa using hns)]
        congr 1
        apply List.countP_congr
        intro x _
        simp
      rw [hr] at ih
      simp only [hr, List.length_cons]
      simp only [reduceCtorEq, if_false] at ih ⊢
      omega
    | finish i hr hi =>
      have hu : unstarted pending (t.log ++ [Ev.finish i (oks i)]) = unstarted pending t.log := by
        unfold unstarted
        apply List.countP_congr
        intro x _
        simp
      have hl : (t.running.erase i).length + 1 = t.running.length := by
        rw [List.length_erase_of_mem hi]
        have := List.length_pos_of_mem hi
        omega
      have hres : (if (finish g pending (oks i) i t).result = some true then 1 else 0) = 0 := by
        simp only [finish]
        cases oks i <;> simp
      rw [hres]
      have e1 : (finish g pending (oks i) i t).log = t.log ++ [Ev.finish i (oks i)] := rfl
      have e2 : (finish g pending (oks i) i t).running = t.running.erase i := rfl
      rw [e1, e2, hu]
      rw [hr] at ih
      simp only [reduceCtorEq, if_false] at ih
      omega
    | done hr hq hrun hc =>
      rw [hr] at ih
      simp only [reduceCtorEq, if_false] at ih
      simp only [if_true]
      omega

/-! ### progress -/

theorem exists_minimal (R : Nat → Nat → Prop) (ht : ∀ a b c, R a b → R b c → R a c) : ∀ (l : List Nat),
    (∀ i ∈ l, ∀ j ∈ l, i ≠ j → R i j → ¬ R j i) → l ≠ [] → ∃ m ∈ l, ∀ j ∈ l, j ≠ m → ¬ R m j := by
  intro l
  induction l with
  | nil => intro _ h; exact absurd rfl h
  | cons a l ih =>
    intro has _
    by_cases hl : l = []
    · subst hl
      exact ⟨a, by simp, fun j hj hne => by simp at hj; exact absurd hj hne⟩
    · obtain ⟨m, hm, hmin⟩ := ih (fun i hi j hj => has i (by simp [hi]) j (by simp [hj])) hl
      by_cases hma : a ≠ m ∧ R m a
      · refine ⟨a, by simp, ?_⟩
        intro j hj hne hr
        rcases List.mem_cons.1 hj with rfl | hj
        · exact hne rfl
        · by_cases hjm : j = m
          · subst hjm
            exact has a (by simp) j (by simp [hj]) hma.1 hr hma.2
          · exact hmin j hj hjm (ht _ _ _ hma.2 hr)
      · refine ⟨m, by simp [hm], ?_⟩
        intro j hj hne hr
        rcases List.mem_cons.1 hj with rfl | hj
        · exact hma ⟨hne, hr⟩
        · exact hmin j hj hne hr

theorem progress {g : Graph N P S} {pending : List Nat} {limit : Nat} {oks : Nat → Bool}
    {s : St} (I : Inv g pending limit oks s) (hc : NoCycle g pending) (hr : s.result = none) :
    ∃ t, Step g pending limit oks s t := by
  have L := I.live hr
  cases hrun : s.running with
  | cons i r => exact ⟨_, .finish s i hr (by rw [hrun]; simp)⟩
  | nil =>
    cases hq : s.queue with
    | cons i q =>
      refine ⟨_, .start s i hr (by rw [hq]; simp) ?_⟩
      unfold mayStart; rw [hrun]
      simp; omega
    | nil =>
      by_cases hcl : s.closed = true
      · exact ⟨_, .done s hr hq hrun hcl⟩
      · exfalso
        rw [L.closed] at hcl
        push Not at hcl
        obtain ⟨i0, hi0, hri0⟩ := hcl
        obtain ⟨m, hm, hmin⟩ := exists_minimal (DependsOn g) (fun _ _ _ => .trans)
          (pending.filter fun i => (s.rem i).isSome)
          (fun i hi j hj => hc i (List.mem_filter.1 hi).1 j (List.mem_filter.1 hj).1)
          (by
            intro he
            rw [List.filter_eq_nil_iff] at he
            exact he i0 hi0 (by simpa [Option.isSome_iff_ne_none] using hri0))
        obtain ⟨hm1, hm2⟩ := List.mem_filter.1 hm
        obtain ⟨r, hr'⟩ := Option.isSome_iff_exists.1 hm2
        obtain ⟨_, hne, hr3⟩ := L.rem m r hr'
        obtain ⟨j, hj⟩ := List.exists_mem_of_ne_nil _ hne
        obtain ⟨hj1, hj2⟩ := (hr3 j).1 hj
        obtain ⟨hj3, hj4, hj5⟩ := mem_requires.1 hj1
        refine hmin j (List.mem_filter.2 ⟨hj3, ?_⟩) hj4 hj5
        have hp := L.part j hj3
        rw [hq, hrun, if_neg hj2] at hp
        by_contra hx
        simp [hx] at hp

end Scripts
end Oro
