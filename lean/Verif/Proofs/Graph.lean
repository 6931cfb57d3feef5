import Verif.Spec.Resolver

set_option linter.unusedSectionVars false

namespace Oro
variable {N P S : Type} [DecidableEq N] [DecidableEq S]
namespace Graph

/-- Parents point to smaller indices. -/
def Ord (g : Graph N P S) : Prop :=
  ∀ (i : Nat) (nd : Node N P S) (p : Nat), g.nodes[i]? = some nd → nd.parent = some p → p < i

/-- parent of `i` -/
def par? (g : Graph N P S) (i : Nat) : Option Nat := (g.nodes[i]?).bind (·.parent)

theorem ancs_fuel {g : Graph N P S} (ho : g.Ord) : ∀ i f, i < f → g.ancs f i = g.ancs (i + 1) i := by
  intro i
  induction i using Nat.strongRecOn with
  | _ i ih =>
    intro f hf
    cases f with
    | zero => omega
    | succ f =>
      simp only [ancs]
      cases hn : g.nodes[i]? with
      | none => rfl
      | some nd =>
        simp only
        cases hp : nd.parent with
        | none => rfl
        | some p =>
          simp only
          have hlt := ho i nd p hn hp
          rw [ih p hlt f (by omega), ih p hlt i hlt]

theorem ancestors_none {g : Graph N P S} {i : Nat} (h : g.nodes[i]? = none) : g.ancestors i = [] := by
  simp [ancestors, ancs, h]

theorem ancestors_root {g : Graph N P S} {i : Nat} {nd : Node N P S} (h : g.nodes[i]? = some nd)
    (hp : nd.parent = none) : g.ancestors i = [i] := by
  simp [ancestors, ancs, h, hp]

theorem ancestors_up {g : Graph N P S} (ho : g.Ord) {i p : Nat} {nd : Node N P S} (h : g.nodes[i]? = some nd)
    (hp : nd.parent = some p) : g.ancestors i = i :: g.ancestors p := by
  have hlt := ho i nd p h hp
  have : g.ancestors i = i :: g.ancs i p := by simp [ancestors, ancs, h, hp]
  rw [this, ancs_fuel ho p i hlt]; rfl

theorem within_le {g : Graph N P S} (ho : g.Ord) {d a : Nat} (h : Within g d a) : a ≤ d := by
  induction h with
  | refl => exact Nat.le_refl _
  | up hn hp _ ih => have := ho _ _ _ hn hp; omega

theorem mem_ancestors {g : Graph N P S} (ho : g.Ord) (d a : Nat) :
    a ∈ g.ancestors d ↔ Within g d a := by
  constructor
  · intro h
    induction d using Nat.strongRecOn with
    | _ d ih =>
      cases hn : g.nodes[d]? with
      | none => rw [ancestors_none hn] at h; simp at h
      | some nd =>
        cases hp : nd.parent with
        | none =>
          rw [ancestors_root hn hp] at h
          simp at h; subst h; exact .refl hn
        | some p =>
          rw [ancestors_up ho hn hp] at h
          rcases List.mem_cons.mp h with h | h
          · subst h; exact .refl hn
          · exact .up hn hp (ih p (ho _ _ _ hn hp) h)
  · intro h
    induction h with
    | @refl i nd hn =>
      cases hp : nd.parent with
      | none => rw [ancestors_root hn hp]; simp
      | some p => rw [ancestors_up ho hn hp]; simp
    | up hn hp _ ih => rw [ancestors_up ho hn hp]; exact List.mem_cons_of_mem _ ih

theorem isAncestor_iff {g : Graph N P S} (ho : g.Ord) (a d : Nat) :
    g.isAncestor a d = true ↔ Within g d a := by
  rw [← mem_ancestors ho]; simp [isAncestor]

theorem within_trans {g : Graph N P S} {a b c : Nat} (h1 : Within g a b) (h2 : Within g b c) : Within g a c := by
  induction h1 with
  | refl _ => exact h2
  | up hn hp _ ih => exact .up hn hp (ih h2)

theorem within_exists {g : Graph N P S} {d a : Nat} (h : Within g d a) : ∃ nd, g.nodes[a]? = some nd := by
  induction h with
  | refl hn => exact ⟨_, hn⟩
  | up _ _ _ ih => exact ih

theorem within_exists_left {g : Graph N P S} {d a : Nat} (h : Within g d a) : ∃ nd, g.nodes[d]? = some nd := by
  cases h with
  | refl hn => exact ⟨_, hn⟩
  | up hn _ _ => exact ⟨_, hn⟩

/-- ancestors of one node are linearly ordered -/
theorem within_linear {g : Graph N P S} {d a b : Nat} (h1 : Within g d a) (h2 : Within g d b) :
    Within g a b ∨ Within g b a := by
  induction h1 with
  | refl _ => exact Or.inl h2
  | @up i p a nd hn hp h ih =>
    cases h2 with
    | refl hn' => exact Or.inr (.up hn hp h)
    | up hn' hp' h' =>
      rw [hn] at hn'; cases hn'
      rw [hp] at hp'; cases hp'
      exact ih h'

theorem child?_eq {g : Graph N P S} {i : Nat} {nd : Node N P S} (h : g.nodes[i]? = some nd) (n : N) :
    g.child? i n = nd.children.get? n := by simp [child?, h]

theorem resolveDep_none {g : Graph N P S} {i : Nat} (h : g.nodes[i]? = none) (n : N) :
    g.resolveDep i n = none := by simp [resolveDep, ancestors_none h]

theorem resolveDep_here {g : Graph N P S} {i : Nat} {n : N} {c : Nat}
    (h : g.child? i n = some c) : g.resolveDep i n = some c := by
  cases hn : g.nodes[i]? with
  | none => simp [child?, hn] at h
  | some nd =>
    have : ∃ l, g.ancestors i = i :: l := by simp [ancestors, ancs, hn]
    obtain ⟨l, hl⟩ := this
    simp [resolveDep, hl, h]

theorem resolveDep_root {g : Graph N P S} {i : Nat} {nd : Node N P S} {n : N} (h : g.nodes[i]? = some nd)
    (hp : nd.parent = none) : g.resolveDep i n = g.child? i n := by
  simp [resolveDep, ancestors_root h hp]

theorem resolveDep_up {g : Graph N P S} (ho : g.Ord) {i p : Nat} {nd : Node N P S} {n : N}
    (h : g.nodes[i]? = some nd) (hp : nd.parent = some p) (hc : g.child? i n = none) :
    g.resolveDep i n = g.resolveDep p n := by
  simp [resolveDep, ancestors_up ho h hp, hc]

/-- The model's lookup is Node's lookup. -/
theorem resolveDep_iff {g : Graph N P S} (ho : g.Ord) (i : Nat) (n : N) (c : Nat) :
    g.resolveDep i n = some c ↔ NodeLoads g i n c := by
  constructor
  · intro h
    induction i using Nat.strongRecOn with
    | _ i ih =>
      cases hn : g.nodes[i]? with
      | none => rw [resolveDep_none hn] at h; cases h
      | some nd =>
        cases hc : g.child? i n with
        | some x =>
          rw [resolveDep_here hc] at h; cases h
          exact .here hn (by rw [← child?_eq hn]; exact hc)
        | none =>
          cases hp : nd.parent with
          | none => rw [resolveDep_root hn hp, hc] at h; cases h
          | some p =>
            rw [resolveDep_up ho hn hp hc] at h
            exact .up hn (by rw [← child?_eq hn]; exact hc) hp (ih p (ho _ _ _ hn hp) h)
  · intro h
    induction h with
    | here hn hc => exact resolveDep_here (by rw [child?_eq hn]; exact hc)
    | up hn hc hp _ ih => rw [resolveDep_up ho hn hp (by rw [child?_eq hn]; exact hc)]; exact ih

/-- who holds the resolved child -/
theorem resolveDep_holder {g : Graph N P S} (ho : g.Ord) {i : Nat} {n : N} {c : Nat}
    (h : g.resolveDep i n = some c) : ∃ u, Within g i u ∧ g.child? u n = some c := by
  rw [resolveDep_iff ho] at h
  induction h with
  | here hn hc => exact ⟨_, .refl hn, by rw [child?_eq hn]; exact hc⟩
  | up hn _ hp _ ih =>
    obtain ⟨u, hu, hc⟩ := ih
    exact ⟨u, .up hn hp hu, hc⟩

theorem resolveDep_exists {g : Graph N P S} (ho : g.Ord) {i u : Nat} {n : N} {c : Nat}
    (hw : Within g i u) (hc : g.child? u n = some c) : ∃ z, g.resolveDep i n = some z := by
  induction hw with
  | refl _ => exact ⟨c, resolveDep_here hc⟩
  | @up j p a nd hn hp _ ih =>
    cases hcj : g.child? j n with
    | some x => exact ⟨x, resolveDep_here hcj⟩
    | none => rw [resolveDep_up ho hn hp hcj]; exact ih hc

/-- two graphs with the same parents below `k` have the same ancestors there -/
theorem ancs_congr {g g' : Graph N P S} (ho : g.Ord) (k : Nat)
    (h : ∀ j, j < k → (g'.nodes[j]?).map (·.parent) = (g.nodes[j]?).map (·.parent)) :
    ∀ f i, i < k → g'.ancs f i = g.ancs f i := by
  intro f
  induction f with
  | zero => intro i _; rfl
  | succ f ih =>
    intro i hi
    have hh := h i hi
    simp only [ancs]
    cases hn : g.nodes[i]? with
    | none => rw [hn] at hh; simp at hh; rw [show g'.nodes[i]? = none by simp; omega]
    | some nd =>
      rw [hn] at hh
      cases hn' : g'.nodes[i]? with
      | none => rw [hn'] at hh; simp at hh
      | some nd' =>
        rw [hn'] at hh; simp at hh
        simp only [hh]
        cases hp : nd.parent with
        | none => rfl
        | some p => simp only; rw [ih p (by have := ho _ _ _ hn hp; omega)]

theorem ancestors_congr {g g' : Graph N P S} (ho : g.Ord) (k : Nat)
    (h : ∀ j, j < k → (g'.nodes[j]?).map (·.parent) = (g.nodes[j]?).map (·.parent))
    {i : Nat} (hi : i < k) : g'.ancestors i = g.ancestors i := ancs_congr ho k h _ _ hi

theorem within_lt_length {g : Graph N P S} {d a : Nat} (h : Within g d a) : d < g.nodes.length := by
  obtain ⟨nd, hn⟩ := within_exists_left h
  exact (List.getElem?_eq_some_iff.mp hn).1

theorem within_congr {g g' : Graph N P S} (ho : g.Ord) (ho' : g'.Ord) (k : Nat)
    (h : ∀ j, j < k → (g'.nodes[j]?).map (·.parent) = (g.nodes[j]?).map (·.parent))
    {i a : Nat} (hi : i < k) : Within g' i a ↔ Within g i a := by
  rw [← mem_ancestors ho, ← mem_ancestors ho', ancestors_congr ho k h hi]

theorem resolveDep_congr {g g' : Graph N P S} (ho : g.Ord) (k : Nat)
    (h : ∀ j, j < k → (g'.nodes[j]?).map (·.parent) = (g.nodes[j]?).map (·.parent)) {n : N}
    (hc : ∀ j, j < k → g'.child? j n = g.child? j n)
    {i : Nat} (hi : i < k) : g'.resolveDep i n = g.resolveDep i n := by
  unfold resolveDep
  rw [ancestors_congr ho k h hi]
  have hm : ∀ j ∈ g.ancestors i, j < k := by
    intro j hj
    have := within_le ho ((mem_ancestors ho i j).mp hj)
    omega
  generalize g.ancestors i = l at hm
  induction l with
  | nil => rfl
  | cons a l ih =>
    simp only [List.findSome?_cons]
    rw [hc a (hm a (by simp)), ih (fun j hj => hm j (List.mem_cons_of_mem _ hj))]

end Graph
end Oro
