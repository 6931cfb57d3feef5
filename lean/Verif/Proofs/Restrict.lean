import Verif.Proofs.Closed
/- Only what is required is ever fetched: a registry that answers nothing else leads to the same resolves. -/

set_option linter.unusedSectionVars false

namespace Oro
open Graph
variable {N P S : Type} [DecidableEq N] [DecidableEq S] {env : Env N P S} {lock : Option (LockTree N P)} {root : Node N P S} {s : RState N P S}

/-- the same surroundings with other answers -/
def Env.answering (env : Env N P S) (f : S → Option (P × Manifest N)) : Env N P S := { env with fetch := f }

theorem climb_answering (f : S → Option (P × Manifest N)) (g : Graph N P S) (n : N) (spec : S) (p : P) (l : Option (List N)) (t : Nat) (r : List Nat) :
    climb (env.answering f) g n spec p l t r = climb env g n spec p l t r := by
  induction r generalizing t with
  | nil => rfl
  | cons c r ih => simp only [climb, ih]; rfl

theorem lockWalk_answering (f : S → Option (P × Manifest N)) (lk : LockTree N P) (n : N) (spec : S) (r : List N) :
    lockWalk (env.answering f) lk n spec r = lockWalk env lk n spec r := by
  induction r with
  | nil => rfl
  | cons c r ih => simp only [lockWalk, ih]; rfl

theorem placeChild_answering (f : S → Option (P × Manifest N)) (g : Graph N P S) (d : Dep N S) (p : P) (m : Manifest N) (tp : Option (List N)) :
    placeChild (env.answering f) g d p m tp = placeChild env g d p m tp := by
  simp only [placeChild, climb_answering]; rfl

theorem processReq_answering (f : S → Option (P × Manifest N)) : processReq (env.answering f) lock = processReq (S := S) env lock := by
  funext s d
  simp only [processReq, placeChild_answering, satisfyFromLockfile, lockWalk_answering]
  rfl

theorem popStep_answering (f : S → Option (P × Manifest N)) : popStep (env.answering f) lock s = popStep env lock s := by
  simp only [popStep, processReq_answering]
theorem pullStep_answering (f : S → Option (P × Manifest N)) : pullStep (env.answering f) s = pullStep env s := rfl
theorem completeStep_answering (f : S → Option (P × Manifest N)) (spec : S) : completeStep (env.answering f) s spec = completeStep env s spec := rfl
theorem serveDep_answering (f : S → Option (P × Manifest N)) : serveDep (env.answering f) = serveDep env := by
  funext p m s d
  simp only [serveDep, placeChild_answering]
  rfl
theorem queueLe_answering (f : S → Option (P × Manifest N)) : queueLe (env.answering f) = queueLe env := rfl

theorem deliverOne_answering {f : S → Option (P × Manifest N)} {spec : S} (h : f spec = env.fetch spec) (s : RState N P S) :
    deliverOne (env.answering f) s spec = deliverOne env s spec := by
  unfold deliverOne
  rw [show (env.answering f).fetch spec = env.fetch spec from h, serveDep_answering]

theorem foldE_congr {α β : Type} {f g : α → β → Except ResolveErr α} (l : List β) (h : ∀ b ∈ l, ∀ a, f a b = g a b) (a : α) : foldE f a l = foldE g a l := by
  induction l generalizing a with
  | nil => rfl
  | cons b l ih =>
    simp only [foldE]
    rw [h b (by simp)]
    cases g a b with
    | error e => rfl
    | ok a => exact ih (fun b hb => h b (by simp [hb])) a

theorem rstep_answering {f : S → Option (P × Manifest N)} (h : ∀ spec ∈ s.ready, f spec = env.fetch spec) (ev : REvent S) :
    rstep (env.answering f) lock s ev = rstep env lock s ev := by
  cases ev with
  | pop => exact popStep_answering f
  | pull => simp only [rstep, pullStep_answering]
  | complete spec => simp only [rstep, completeStep_answering]
  | deliver =>
    simp only [rstep, deliverStep]
    rw [foldE_congr (g := deliverOne env) s.ready (fun spec hs a => deliverOne_answering (h spec hs) a)]
    rfl

/-- what is fetched is required by something in the tree -/
theorem RReach.ready_declared (hr : IsRoot env root) (h : RReach env lock root s) : ∀ spec ∈ s.ready, ∃ i n ty, Declares s.graph i n spec ty := by
  intro spec hs
  have hi := h.sinv hr
  have hk : spec ∈ s.fetches.keys := hi.act.subset (List.mem_append_right _ hs)
  obtain ⟨kl, h1, rfl⟩ := List.mem_map.1 hk
  obtain ⟨h2, h3⟩ := hi.fok kl h1
  obtain ⟨d, hd⟩ := List.exists_mem_of_ne_nil _ h2
  have hw : d ∈ s.waiting := by
    rw [waiting_eq]
    exact List.mem_append_right _ (List.mem_flatMap.2 ⟨kl, h1, hd⟩)
  obtain ⟨nd, k1, k2, _⟩ := hi.pinv.pre d (by simpa using hw)
  rw [← h3 d hd]
  exact ⟨d.node, d.name, d.ty, nd, k1, k2⟩

/-- answers to what is not required do not matter -/
theorem RReach.answering {f : S → Option (P × Manifest N)} (hr : IsRoot env root) (h : RReach env lock root s)
    (hf : ∀ s, RReach env lock root s → ∀ i n spec ty, Declares s.graph i n spec ty → f spec = env.fetch spec) :
    RReach (env.answering f) lock root s := by
  induction h with
  | init => exact .init
  | @step s s' ev h hs ih =>
    refine .step ev ih ?_
    rw [rstep_answering _ ev]
    · exact hs
    · intro spec hsp
      obtain ⟨i, n, ty, hd⟩ := h.ready_declared hr spec hsp
      exact hf s h i n spec ty hd

theorem rrun_answering {f : S → Option (P × Manifest N)} (hr : IsRoot env root)
    (hf : ∀ s, RReach env lock root s → ∀ i n spec ty, Declares s.graph i n spec ty → f spec = env.fetch spec) (evs : List (REvent S))
    {s : RState N P S} (h : RReach env lock root s) : rrun (env.answering f) lock s evs = rrun env lock s evs := by
  induction evs generalizing s with
  | nil => rfl
  | cons ev evs ih =>
    simp only [rrun]
    have e : rstep (env.answering f) lock s ev = rstep env lock s ev := by
      refine rstep_answering (fun spec hsp => ?_) ev
      obtain ⟨i, n, ty, hd⟩ := h.ready_declared hr spec hsp
      exact hf s h i n spec ty hd
    rw [e]
    cases hx : rstep env lock s ev with
    | none => rfl
    | some r =>
      cases r with
      | error x => rfl
      | ok s' => exact ih (.step ev h hx)

end Oro
