import Verif.Proofs.ResolverMore
/- How many events a resolve can take. -/

set_option linter.unusedSectionVars false

namespace Oro
variable {N P S : Type} [DecidableEq N] [DecidableEq S]
open Graph

/-- number of requirements of each package -/
def sizes (g : Graph N P S) : List Nat := g.nodes.map (·.reqs.length)

/-- events that the packages of the given sizes can cause: one for itself, three for each requirement -/
def cost (l : List Nat) : Nat := (l.map (1 + 3 * ·)).sum

def wt (l : List Nat) (i : Nat) : Nat := match l[i]? with | some k => 1 + 3 * k | none => 0

/-- events that are still to come, not counting packages that are not there yet -/
def pending (s : RState N P S) : Nat :=
  3 * s.chan.length + 2 * s.active.length + s.ready.length + (s.q.map (wt (sizes s.graph))).sum

section
variable {env : Env N P S} {lock : Option (LockTree N P)} {g : Graph N P S} {s s' : RState N P S}

theorem sizes_modify (g : Graph N P S) (i : Nat) (f : Node N P S → Node N P S) (hf : ∀ nd, (f nd).reqs = nd.reqs) :
    sizes (g.modify i f) = sizes g := by
  apply List.ext_getElem?
  intro j
  simp only [sizes, Graph.modify, List.getElem?_map, List.getElem?_modify]
  cases g.nodes[j]? with
  | none => simp
  | some y =>
    simp only [Option.map_some]
    split <;> simp [hf]

theorem satisfy_sizes {d : Dep N S} {g' : Graph N P S} {x : Nat} (h : satisfyDependency env g d = some (g', x)) : sizes g' = sizes g := by
  rw [(satisfy_some h).1]
  unfold linkAt
  rw [sizes_modify _ _ _ (by intro _; rfl)]
  rfl

theorem placeChild_sizes {d : Dep N S} {p : P} {m : Manifest N} {tp : Option (List N)} {r : Placed N P S}
    (h : placeChild env g d p m tp = some r) : (∃ k, sizes r.graph = sizes g ++ [k]) ∧ r.child = (sizes g).length := by
  unfold placeChild at h
  split at h
  · cases h
  · rename_i nd _
    dsimp only at h
    cases h
    refine ⟨⟨nd.reqs.length, ?_⟩, by simp [sizes]⟩
    dsimp only
    rw [sizes_modify _ _ _ (by intro _; rfl), sizes_modify _ _ _ (by intro _; rfl), sizes_modify _ _ _ (by intro _; rfl)]
    simp [sizes, addEdge, addNode]

theorem wt_append {l : List Nat} {k i : Nat} (h : i < l.length) : wt (l ++ [k]) i = wt l i := by
  unfold wt; rw [List.getElem?_append_left h]

theorem wt_last (l : List Nat) (k : Nat) : wt (l ++ [k]) l.length = 1 + 3 * k := by
  unfold wt; simp

theorem cost_append (l : List Nat) (k : Nat) : cost (l ++ [k]) = cost l + (1 + 3 * k) := by
  unfold cost; simp

/-- queued packages exist -/
def QOk (s : RState N P S) : Prop := ∀ i ∈ s.q, i < (sizes s.graph).length

/-- from `s` to `s'`, with `k` events to spare -/
def Within' (k : Nat) (s s' : RState N P S) : Prop := pending s' + cost (sizes s.graph) ≤ pending s + cost (sizes s'.graph) + k

theorem placed_bound {d : Dep N S} {p : P} {m : Manifest N} {tp : Option (List N)} {r : Placed N P S} {c : Nat} (hq : QOk s)
    (h : placeChild env s.graph d p m tp = some r) :
    QOk { s with graph := r.graph, q := s.q ++ [r.child], clobbers := c } ∧
    Within' 0 s { s with graph := r.graph, q := s.q ++ [r.child], clobbers := c } := by
  obtain ⟨⟨k, hk⟩, hc⟩ := placeChild_sizes h
  constructor
  · intro i hi
    dsimp only at hi ⊢
    rw [hk, List.length_append, List.length_singleton]
    rcases List.mem_append.1 hi with hi | hi
    · have := hq i hi; omega
    · rw [List.mem_singleton.1 hi, hc]; omega
  · unfold Within' pending
    dsimp only
    rw [hk, cost_append, List.map_append, List.sum_append, List.map_singleton, List.sum_singleton, hc, wt_last]
    have : s.q.map (wt (sizes s.graph ++ [k])) = s.q.map (wt (sizes s.graph)) :=
      List.map_congr_left fun i hi => wt_append (hq i hi)
    rw [this]
    omega

theorem linked_bound {g' : Graph N P S} (hq : QOk s) (h : sizes g' = sizes s.graph) :
    QOk { s with graph := g' } ∧ Within' 0 s { s with graph := g' } := by
  constructor
  · intro i hi
    dsimp only at hi ⊢
    rw [h]; exact hq i hi
  · unfold Within' pending
    dsimp only
    rw [h]; omega

theorem processReq_bound {d : Dep N S} (hq : QOk s) (h : processReq env lock s d = .ok s') : QOk s' ∧ Within' 3 s s' := by
  unfold Oro.processReq at h
  split at h
  · rename_i g' x hsd
    cases h
    obtain ⟨a, b⟩ := linked_bound hq (satisfy_sizes hsd)
    exact ⟨a, Nat.le_trans b (by omega)⟩
  · dsimp only at h
    split at h
    · cases h
    · split at h
      · cases h
      · rename_i r hr
        cases h
        obtain ⟨a, b⟩ := placed_bound (c := s.clobbers + if r.clobbered.isSome then 1 else 0) hq hr
        exact ⟨a, Nat.le_trans b (by omega)⟩
    · cases h
      refine ⟨hq, ?_⟩
      unfold Within' pending
      simp only [List.length_append, List.length_singleton]
      omega

theorem serveDep_bound {p : P} {m : Manifest N} {d : Dep N S} (hq : QOk s) (h : serveDep env p m s d = .ok s') : QOk s' ∧ Within' 0 s s' := by
  unfold Oro.serveDep at h
  split at h
  · rename_i g' x hsd
    cases h
    exact linked_bound hq (satisfy_sizes hsd)
  · split at h
    · cases h
    · rename_i r hr
      cases h
      exact placed_bound (c := s.clobbers + if r.clobbered.isSome then 1 else 0) hq hr

theorem foldE_bound {α : Type} {f : RState N P S → α → Except ResolveErr (RState N P S)} {k : Nat}
    (hf : ∀ s a s', QOk s → f s a = .ok s' → QOk s' ∧ Within' k s s') : ∀ (l : List α) (s s' : RState N P S), QOk s →
    foldE f s l = .ok s' → QOk s' ∧ Within' (k * l.length) s s' := by
  intro l
  induction l with
  | nil =>
    intro s s' hq h
    simp only [foldE, Except.ok.injEq] at h
    subst h
    exact ⟨hq, by unfold Within'; simp⟩
  | cons a l ih =>
    intro s s' hq h
    simp only [foldE] at h
    cases h1 : f s a with
    | error e => rw [h1] at h; cases h
    | ok s1 =>
      rw [h1] at h
      obtain ⟨q1, b1⟩ := hf s a s1 hq h1
      obtain ⟨q2, b2⟩ := ih s1 s' q1 h
      refine ⟨q2, ?_⟩
      unfold Within' at b1 b2 ⊢
      rw [List.length_cons, Nat.mul_add, Nat.mul_one]
      omega

theorem erase_len {α : Type} [DecidableEq α] (l : List α) (a : α) : (l.erase a).length ≤ l.length := List.length_erase_le

theorem deliverOne_bound {spec : S} (hq : QOk s) (h : deliverOne env s spec = .ok s') : QOk s' ∧ Within' 0 s s' := by
  unfold Oro.deliverOne at h
  split at h
  · cases h
  · rename_i p m _
    dsimp only at h
    have hlen := erase_len s.ready spec
    split at h
    · cases h
      refine ⟨hq, ?_⟩
      unfold Within' pending
      dsimp only
      omega
    · split at h
      · rename_i deps _ _
        obtain ⟨a, b⟩ := foldE_bound (fun x d x' hx hd => serveDep_bound hx hd) _ _ _ (by exact hq) h
        refine ⟨a, ?_⟩
        unfold Within' at b ⊢
        unfold pending at b ⊢
        dsimp only at b
        omega
      · cases h

theorem rstep_bound {ev : REvent S} (hq : QOk s) (h : rstep env lock s ev = some (.ok s')) :
    QOk s' ∧ 1 + pending s' + cost (sizes s.graph) ≤ pending s + cost (sizes s'.graph) := by
  cases ev with
  | pop =>
    simp only [Oro.rstep, popStep] at h
    cases hqq : s.q with
    | nil => rw [hqq] at h; cases h
    | cons i q =>
      rw [hqq] at h
      simp only [Option.some.injEq] at h
      obtain ⟨a, b⟩ := foldE_bound (fun x d x' hx hd => processReq_bound hx hd) _ { s with q := q } _
        (by intro j hj; exact hq j (by rw [hqq]; exact List.mem_cons_of_mem _ hj)) h
      refine ⟨a, ?_⟩
      have hi : i < (sizes s.graph).length := hq i (by rw [hqq]; simp)
      have hw : wt (sizes s.graph) i = 1 + 3 * (nodeDeps s.graph i).length := by
        unfold wt nodeDeps
        have hi' : i < s.graph.nodes.length := by simpa [sizes] using hi
        rw [List.getElem?_eq_getElem hi, List.getElem?_eq_getElem hi']
        simp [sizes]
      unfold Within' at b
      unfold pending at b ⊢
      dsimp only at b
      rw [hqq, List.map_cons, List.sum_cons, hw]
      omega
  | pull =>
    simp only [Oro.rstep, Option.map_eq_some_iff] at h
    obtain ⟨x, h1, h2⟩ := h
    cases h2
    unfold pullStep at h1
    split at h1
    · split at h1
      · cases h1
      · rename_i d chan hc
        split at h1
        · cases h1
          refine ⟨hq, ?_⟩
          unfold pending
          simp only [hc, List.length_cons]
          omega
        · cases h1
          refine ⟨hq, ?_⟩
          unfold pending
          simp only [hc, List.length_cons, List.length_append, List.length_nil]
          omega
    · cases h1
  | complete spec =>
    simp only [Oro.rstep, Option.map_eq_some_iff] at h
    obtain ⟨x, h1, h2⟩ := h
    cases h2
    unfold completeStep at h1
    split at h1
    · rename_i hif
      cases h1
      refine ⟨hq, ?_⟩
      have hmem : spec ∈ s.active := by
        simp only [Bool.and_eq_true, decide_eq_true_eq] at hif; exact hif.2
      have := List.length_erase_of_mem hmem
      have hpos := List.length_pos_of_mem hmem
      unfold pending
      simp only [List.length_append, List.length_singleton]
      omega
    · cases h1
  | deliver =>
    simp only [Oro.rstep, deliverStep] at h
    split at h
    · rename_i hif
      simp only [Option.some.injEq] at h
      split at h
      · rename_i x hx
        cases h
        have key : ∀ (l : List S) (y z : RState N P S), QOk y → y.ready = l → foldE (deliverOne env) y l = .ok z → QOk z ∧
            pending z + l.length + cost (sizes y.graph) ≤ pending y + cost (sizes z.graph) := by
          intro l
          induction l with
          | nil =>
            intro y z hy _ h
            simp only [foldE, Except.ok.injEq] at h
            subst h; exact ⟨hy, by simp⟩
          | cons a l ih =>
            intro y z hy hr h
            simp only [foldE] at h
            cases h1 : Oro.deliverOne env y a with
            | error e => rw [h1] at h; cases h
            | ok y1 =>
              rw [h1] at h
              have hr1 : y1.ready = l := by rw [(deliverOne_ready h1).1, hr]; simp
              obtain ⟨q2, b2⟩ := ih y1 z (deliverOne_bound hy h1).1 hr1 h
              refine ⟨q2, ?_⟩
              -- one response less
              have hone : pending y1 + 1 + cost (sizes y.graph) ≤ pending y + cost (sizes y1.graph) := by
                have hy0 : QOk { y with ready := l } := hy
                have h3 : Oro.deliverOne env y a = .ok y1 := h1
                unfold Oro.deliverOne at h3
                split at h3
                · cases h3
                · dsimp only at h3
                  have he : y.ready.erase a = l := by rw [hr]; simp
                  rw [he] at h3
                  split at h3
                  · cases h3
                    unfold pending
                    simp only [hr, List.length_cons]
                    omega
                  · split at h3
                    · obtain ⟨_, b⟩ := foldE_bound (fun x d x' hx hd => serveDep_bound hx hd) _ _ _ (by exact hy) h3
                      unfold Within' at b
                      unfold pending at b ⊢
                      dsimp only at b
                      rw [hr, List.length_cons]
                      omega
                    · cases h3
              rw [List.length_cons]
              omega
        obtain ⟨a, b⟩ := key _ _ _ hq rfl hx
        have hp := sortBy_perm (queueLe env x.graph) x.q
        refine ⟨fun i hi => a i (hp.mem_iff.1 hi), ?_⟩
        have hne : 1 ≤ s.ready.length := by
          simp only [Bool.and_eq_true, Bool.not_eq_true', List.isEmpty_eq_false_iff] at hif
          exact List.length_pos_of_ne_nil hif.2
        have hsum : pending { x with q := sortBy (queueLe env x.graph) x.q } = pending x := by
          unfold pending
          dsimp only
          rw [(hp.map _).sum_nat]
        rw [hsum]
        dsimp only
        omega
      · cases h
    · cases h

theorem rrun_bound : ∀ (evs : List (REvent S)) (s s' : RState N P S), QOk s → rrun env lock s evs = some (.ok s') →
    QOk s' ∧ evs.length + pending s' + cost (sizes s.graph) ≤ pending s + cost (sizes s'.graph) := by
  intro evs
  induction evs with
  | nil =>
    intro s s' hq h
    simp only [rrun, Option.some.injEq, Except.ok.injEq] at h
    subst h; exact ⟨hq, by simp⟩
  | cons ev evs ih =>
    intro s s' hq h
    simp only [rrun] at h
    cases h1 : rstep env lock s ev with
    | none => rw [h1] at h; cases h
    | some r =>
      rw [h1] at h
      cases r with
      | error e => cases h
      | ok s1 =>
        obtain ⟨q1, b1⟩ := rstep_bound hq h1
        obtain ⟨q2, b2⟩ := ih s1 s' q1 h
        refine ⟨q2, ?_⟩
        rw [List.length_cons]
        omega

end
end Oro
