import Verif.Props.Resolver
/- Properties C58, C59: how many requests run at a time, and in which order packages are worked on. -/

set_option linter.unusedSectionVars false

namespace Oro
variable {N P S : Type} [DecidableEq N] [DecidableEq S]
open Graph

section
variable {env : Env N P S} {lock : Option (LockTree N P)} {root : Node N P S} {s s' : RState N P S}

/-! ## C58 -/

theorem foldE_keep {σ α ε : Type} {f : σ → α → Except ε σ} {I : σ → Prop} (hf : ∀ x a y, I x → f x a = .ok y → I y) :
    ∀ (l : List α) (x y : σ), I x → foldE f x l = .ok y → I y := by
  intro l
  induction l with
  | nil => intro x y hx h; cases h; exact hx
  | cons a l ih =>
    intro x y hx h
    simp only [foldE] at h
    cases ha : f x a with
    | error e => rw [ha] at h; cases h
    | ok x' => rw [ha] at h; exact ih x' y (hf x a x' hx ha) h

theorem processReq_active {x y : RState N P S} {d : Dep N S} (h : processReq env lock x d = .ok y) :
    y.active = x.active ∧ y.ready = x.ready := by
  unfold processReq at h
  split at h
  · cases h; exact ⟨rfl, rfl⟩
  · dsimp only at h
    split at h
    · cases h
    · split at h
      · cases h
      · cases h; exact ⟨rfl, rfl⟩
    · cases h; exact ⟨rfl, rfl⟩

theorem serveDep_active {p : P} {m : Manifest N} {x y : RState N P S} {d : Dep N S} (h : serveDep env p m x d = .ok y) :
    y.active = x.active ∧ y.ready = x.ready := by
  unfold serveDep at h
  split at h
  · cases h; exact ⟨rfl, rfl⟩
  · split at h
    · cases h
    · cases h; exact ⟨rfl, rfl⟩

theorem deliverOne_active {x y : RState N P S} {spec : S} (h : deliverOne env x spec = .ok y) :
    y.active = x.active ∧ y.ready = x.ready.erase spec := by
  unfold deliverOne at h
  split at h
  · cases h
  · dsimp only at h
    split at h
    · cases h; exact ⟨rfl, rfl⟩
    · split at h
      · refine foldE_keep (I := fun z : RState N P S => z.active = x.active ∧ z.ready = x.ready.erase spec)
          ?_ _ _ _ ?_ h
        rotate_left
        · exact ⟨rfl, rfl⟩
        exact fun a _ b ha hb => ⟨(serveDep_active hb).1.trans ha.1, (serveDep_active hb).2.trans ha.2⟩
      · cases h

/-- C58. In every reachable state, at most `concurrency` registry requests are running, and at most `concurrency`
answers are waiting to be handled. -/
theorem C58_bounded (h : RReach env lock root s) :
    s.active.length ≤ env.concurrency ∧ s.ready.length ≤ env.concurrency := by
  induction h with
  | init => exact ⟨Nat.zero_le _, Nat.zero_le _⟩
  | @step s s' ev _ hst ih =>
    cases ev with
    | pop =>
      simp only [rstep, popStep] at hst
      split at hst
      · cases hst
      · simp only [Option.some.injEq] at hst
        refine foldE_keep (I := fun z : RState N P S => z.active.length ≤ env.concurrency ∧ z.ready.length ≤ env.concurrency)
          ?_ _ _ _ ?_ hst
        · intro x a y hx hy
          rw [(processReq_active hy).1, (processReq_active hy).2]; exact hx
        · exact ih
    | pull =>
      simp only [rstep, Option.map_eq_some_iff, Except.ok.injEq] at hst
      obtain ⟨x, hx, rfl⟩ := hst
      unfold pullStep at hx
      split at hx
      · rename_i hc
        simp only [Bool.and_eq_true, decide_eq_true_eq] at hc
        split at hx
        · cases hx
        · split at hx
          · cases hx; exact ih
          · cases hx
            exact ⟨by simp only [List.length_append, List.length_cons, List.length_nil]; omega, ih.2⟩
      · cases hx
    | complete spec =>
      simp only [rstep, Option.map_eq_some_iff, Except.ok.injEq] at hst
      obtain ⟨x, hx, rfl⟩ := hst
      unfold completeStep at hx
      split at hx
      · rename_i hc
        simp only [Bool.and_eq_true, decide_eq_true_eq] at hc
        cases hx
        refine ⟨Nat.le_trans List.length_erase_le ih.1, ?_⟩
        simp only [List.length_append, List.length_cons, List.length_nil]; omega
      · cases hx
    | deliver =>
      simp only [rstep, deliverStep] at hst
      split at hst
      · simp only [Option.some.injEq] at hst
        split at hst
        · rename_i s1 hf
          cases hst
          have := foldE_keep (I := fun z : RState N P S => z.active.length ≤ env.concurrency ∧ z.ready.length ≤ env.concurrency)
            (fun x a y hx hy => by
              rw [(deliverOne_active hy).1, (deliverOne_active hy).2]
              exact ⟨hx.1, Nat.le_trans List.length_erase_le hx.2⟩) _ _ _ ih hf
          exact this
        · cases hst
      · cases hst

/-! ## C59 -/

/-- sorting is by `le` if `le` is total and transitive on the elements -/
theorem sortBy_sorted_on {α : Type} {le : α → α → Bool} (Q : α → Prop)
    (htot : ∀ a b, Q a → Q b → le a b = true ∨ le b a = true)
    (htr : ∀ a b c, Q a → Q b → Q c → le a b = true → le b c = true → le a c = true) :
    ∀ l : List α, (∀ a ∈ l, Q a) → (sortBy le l).Pairwise (fun x y => le x y = true) := by
  have hins : ∀ a, Q a → ∀ l : List α, (∀ b ∈ l, Q b) → l.Pairwise (fun x y => le x y = true) →
      (insertBy le a l).Pairwise (fun x y => le x y = true) := by
    intro a hqa l
    induction l with
    | nil => intro _ _; simp [insertBy]
    | cons b l ih =>
      intro hq h
      have hqb := hq b (List.mem_cons_self ..)
      have hql := fun x hx => hq x (List.mem_cons_of_mem _ hx)
      unfold insertBy
      split
      · rename_i hab
        refine List.pairwise_cons.mpr ⟨?_, h⟩
        intro x hx
        rcases List.mem_cons.mp hx with rfl | hx
        · exact hab
        · exact htr _ _ _ hqa hqb (hql x hx) hab ((List.pairwise_cons.mp h).1 x hx)
      · rename_i hab
        refine List.pairwise_cons.mpr ⟨?_, ih hql (List.pairwise_cons.mp h).2⟩
        intro x hx
        rcases List.mem_cons.mp ((insertBy_perm le a l).mem_iff.mp hx) with rfl | hx
        · exact (htot x b hqa hqb).resolve_left hab
        · exact (List.pairwise_cons.mp h).1 x hx
  intro l
  induction l with
  | nil => intro _; exact List.Pairwise.nil
  | cons a l ih =>
    intro hq
    exact hins a (hq a (List.mem_cons_self ..)) _
      (fun b hb => hq b (List.mem_cons_of_mem _ ((sortBy_perm le l).mem_iff.mp hb)))
      (ih fun b hb => hq b (List.mem_cons_of_mem _ hb))

/-- the depth of a package is the length of its location -/
theorem depth_located {g : Graph N P S} (ho : g.Ord) {i : Nat} {π : List N} (h : LocatedAt g i π) :
    g.depth i = π.length := by
  have key : (g.ancestors i).length = π.length + 1 := by
    induction h with
    | @root nd h0 =>
      have hp : nd.parent = none := by
        cases hp : nd.parent with
        | none => rfl
        | some p => exact absurd (ho 0 nd p h0 hp) (Nat.not_lt_zero p)
      simp [ancestors, ancs, h0, hp]
    | inside hn hp _ ih => rw [ancestors_up ho hn hp]; simp [ih]
  unfold depth; omega

theorem satisfyDependency_size {g g' : Graph N P S} {d : Dep N S} {x : Nat}
    (h : satisfyDependency env g d = some (g', x)) : g'.nodes.length = g.nodes.length := by
  unfold satisfyDependency at h
  split at h
  · cases h
  · split at h
    · cases h
    · split at h
      · cases h; simp [Graph.modify, Graph.addEdge]
      · cases h

theorem placeChild_size {g : Graph N P S} {d : Dep N S} {p : P} {m : Manifest N} {t : Option (List N)} {r : Placed N P S}
    (h : placeChild env g d p m t = some r) : r.child = g.nodes.length ∧ r.graph.nodes.length = g.nodes.length + 1 := by
  unfold placeChild at h
  split at h
  · cases h
  · cases h; exact ⟨rfl, by simp [Graph.modify, Graph.addEdge, Graph.addNode]⟩

/-- the queue holds exactly the packages numbered from `n` -/
def QueuedFrom (n : Nat) (s : RState N P S) : Prop :=
  n ≤ s.graph.nodes.length ∧ ∀ i, i ∈ s.q ↔ n ≤ i ∧ i < s.graph.nodes.length

theorem serveDep_queued {n : Nat} {p : P} {m : Manifest N} {x y : RState N P S} {d : Dep N S} (hx : QueuedFrom n x)
    (h : serveDep env p m x d = .ok y) : QueuedFrom n y := by
  obtain ⟨h1, h2⟩ := hx
  unfold serveDep at h
  split at h
  · rename_i g _ hs
    cases h
    have := satisfyDependency_size hs
    exact ⟨by simp only [this]; exact h1, fun i => by simp only [this]; exact h2 i⟩
  · split at h
    · cases h
    · rename_i r hp
      cases h
      obtain ⟨a, b⟩ := placeChild_size hp
      refine ⟨by simp only [b]; omega, fun i => ?_⟩
      simp only [List.mem_append, List.mem_singleton, h2 i, a, b]
      omega

theorem deliverOne_queued {n : Nat} {x y : RState N P S} {spec : S} (hx : QueuedFrom n x)
    (h : deliverOne env x spec = .ok y) : QueuedFrom n y := by
  unfold deliverOne at h
  split at h
  · cases h
  · dsimp only at h
    split at h
    · cases h; exact hx
    · split at h
      · refine foldE_keep (I := QueuedFrom n) ?_ _ _ _ ?_ h
        rotate_left
        · exact hx
        exact fun a _ b ha hb => serveDep_queued ha hb
      · cases h

/-- C59. After every batch of answers, the packages still to be worked on are those that were just added to the tree,
in order: nearer to the project first, and by name at the same depth. -/
theorem C59_shallow_first (hr : IsRoot env root) (h : RReach env lock root s)
    (htot : ∀ a b, env.nameLe a b = true ∨ env.nameLe b a = true)
    (htr : ∀ a b c, env.nameLe a b = true → env.nameLe b c = true → env.nameLe a c = true)
    (hst : rstep env lock s .deliver = some (.ok s')) :
    s'.q.Pairwise (fun i j => ∀ πi πj ni nj, LocatedAt s'.graph i πi → LocatedAt s'.graph j πj →
      s'.graph.nodes[i]? = some ni → s'.graph.nodes[j]? = some nj →
      πi.length < πj.length ∨ (πi.length = πj.length ∧ env.nameLe ni.pkg nj.pkg = true)) ∧
    (∀ i, i ∈ s'.q ↔ s.graph.nodes.length ≤ i ∧ i < s'.graph.nodes.length) := by
  have hs' := (RReach.step .deliver h hst).sinv hr
  have hg := hs'.pinv.ginv
  simp only [rstep, deliverStep] at hst
  split at hst
  · rename_i hc
    simp only [Bool.and_eq_true, List.isEmpty_iff] at hc
    simp only [Option.some.injEq] at hst
    split at hst
    · rename_i s1 hf
      cases hst
      have hq : QueuedFrom s.graph.nodes.length s1 := by
        refine foldE_keep (I := QueuedFrom s.graph.nodes.length) (fun x a y hx hy => deliverOne_queued hx hy) _ _ _ ?_ hf
        refine ⟨Nat.le_refl _, fun i => ?_⟩
        rw [hc.1.1]
        simp only [List.not_mem_nil, false_iff, not_and, not_lt]
        exact fun h => h
      dsimp only at hg hs' ⊢
      refine ⟨?_, fun i => by rw [mem_sortBy]; exact hq.2 i⟩
      have hsort := sortBy_sorted_on (le := queueLe env s1.graph) (fun i => i < s1.graph.nodes.length) ?_ ?_ s1.q
        (fun i hi => ((hq.2 i).mp hi).2)
      · refine hsort.imp ?_
        intro i j hij πi πj ni nj hi hj hni hnj
        unfold queueLe at hij
        rw [depth_located hg.ord hi, depth_located hg.ord hj] at hij
        have p1 : s1.graph.pkg? i = some ni.pkg := by simp [Graph.pkg?, hni]
        have p2 : s1.graph.pkg? j = some nj.pkg := by simp [Graph.pkg?, hnj]
        split at hij
        · rename_i hlt; exact Or.inl hlt
        · split at hij
          · rename_i heq
            rw [p1, p2] at hij
            exact Or.inr ⟨heq, hij⟩
          · cases hij
      · intro a b ha hb
        have p1 : s1.graph.pkg? a = some (s1.graph.nodes[a]).pkg := by simp [Graph.pkg?, ha]
        have p2 : s1.graph.pkg? b = some (s1.graph.nodes[b]).pkg := by simp [Graph.pkg?, hb]
        unfold queueLe
        rw [p1, p2]
        rcases Nat.lt_trichotomy (s1.graph.depth a) (s1.graph.depth b) with hl | he | hl
        · exact Or.inl (by rw [if_pos hl])
        · rw [if_neg (by omega), if_pos he, if_neg (by omega), if_pos he.symm]
          exact htot _ _
        · exact Or.inr (by rw [if_pos hl])
      · intro a b c ha hb hc' hab hbc
        have p1 : s1.graph.pkg? a = some (s1.graph.nodes[a]).pkg := by simp [Graph.pkg?, ha]
        have p2 : s1.graph.pkg? b = some (s1.graph.nodes[b]).pkg := by simp [Graph.pkg?, hb]
        have p3 : s1.graph.pkg? c = some (s1.graph.nodes[c]).pkg := by simp [Graph.pkg?, hc']
        unfold queueLe at hab hbc ⊢
        rw [p1, p2] at hab
        rw [p2, p3] at hbc
        rw [p1, p3]
        split at hab
        · split at hbc
          · rw [if_pos (by omega)]
          · split at hbc
            · rw [if_pos (by omega)]
            · cases hbc
        · split at hab
          · split at hbc
            · rw [if_pos (by omega)]
            · split at hbc
              · rw [if_neg (by omega), if_pos (by omega)]; exact htr _ _ _ hab hbc
              · cases hbc
          · cases hab
    · cases hst
  · cases hst

end

-- a run that fetches: before the first batch three answers are waiting, after it three packages are queued in order
open Ex in
example : IsRoot env1 root1 ∧ RReach env1 none root1 (final env1 root1 (sched1.take 7)) ∧
    (final env1 root1 (sched1.take 7)).ready.length = 3 ∧
    RReach env1 none root1 (final env1 root1 (sched1.take 8)) ∧
    (final env1 root1 (sched1.take 8)).q.map (fun i => (final env1 root1 (sched1.take 8)).graph.nodePath i) = [[1], [2], [3]] :=
  ⟨root1_ok, final_reach (by decide +kernel), by decide +kernel, final_reach (by decide +kernel), by decide +kernel⟩

end Oro
