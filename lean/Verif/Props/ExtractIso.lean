import Verif.Spec.ExtractIso
import Verif.Props.Extract
import Verif.Props.Isolated
/-
C46: the isolated linker extracts several packages at a time, file by file and link by link, in any order: the result is the
same, nothing fails, and it comes to an end.
-/

set_option linter.unusedSectionVars false

namespace Oro
namespace Iso
open Hoisted (Entry Tree Pkgs Disk storeName binName writeAt XEvent Sub WrittenAs writeAt_sub cons_eraseIdx_perm)
variable {P S V I : Type}

section
variable {pk : Pkgs P} {ws : P → List (Loc × Entry)} {cap : Nat} {v : Env} {g : Graph Str P S} {T0 : Tree}

/-! ### a dependency is linked the same way in trees that agree there -/

theorem mkdirp_mirror {X Y Y' : Tree} {cache c' : List Loc} {p : Loc} (h : ∀ q, q <+: p → X q = Y q) (hm : mkdirp Y cache p = some (Y', c')) :
    ∃ X', mkdirp X cache p = some (X', c') ∧ (∀ q, q <+: p → X' q = Y' q) ∧ ∀ q, ¬ q <+: p → X' q = X q ∧ Y' q = Y q := by
  unfold mkdirp at hm ⊢
  split at hm
  · rename_i h1
    cases hm
    rw [if_pos h1]
    exact ⟨X, rfl, h, fun q _ => ⟨rfl, rfl⟩⟩
  · rename_i h1
    rw [if_neg h1]
    split at hm
    · rename_i h2
      rw [if_pos h2]
      split at hm
      · rename_i h3
        cases hm
        rw [if_pos (by rw [h p List.prefix_rfl]; exact h3)]
        refine ⟨_, rfl, fun q hq => ?_, fun q hq => ?_⟩
        · unfold put
          split
          · rfl
          · exact h q hq
        · have : q ≠ p := by rintro rfl; exact hq List.prefix_rfl
          unfold put
          rw [if_neg this, if_neg this]
          exact ⟨rfl, rfl⟩
      · cases hm
    · rename_i h2
      rw [if_neg h2]
      have e : (p.inits.any fun q => decide (X q ≠ none) && decide (X q ≠ some .dir)) = p.inits.any fun q => decide (Y q ≠ none) && decide (Y q ≠ some .dir) := by
        rw [Bool.eq_iff_iff, List.any_eq_true, List.any_eq_true]
        constructor <;> rintro ⟨q, hq, hx⟩ <;> refine ⟨q, hq, ?_⟩
        · rw [← h q ((List.mem_inits _ _).1 hq)]; exact hx
        · rw [h q ((List.mem_inits _ _).1 hq)]; exact hx
      rw [e]
      split at hm
      · cases hm
      · rename_i h3
        cases hm
        rw [if_neg h3]
        refine ⟨_, rfl, fun q hq => ?_, fun q hq => ?_⟩
        · dsimp only
          rw [h q hq]
        · have : q ∉ p.inits := fun hx => hq ((List.mem_inits _ _).1 hx)
          dsimp only
          rw [if_neg (fun hx => this hx.1), if_neg (fun hx => this hx.1)]
          exact ⟨rfl, rfl⟩

theorem linkDep_mirror {X Y Y' : Tree} {cache c' : List Loc} {i j : Nat} (h : ∀ q, q <+: entryFor v g i j → X q = Y q)
    (hex : existsAt v X (entryFor v g i j) = existsAt v Y (entryFor v g i j)) (hl : linkDep v g i (Y, cache) j = some (Y', c')) :
    ∃ X', linkDep v g i (X, cache) j = some (X', c') ∧ (∀ q, q <+: entryFor v g i j → X' q = Y' q) ∧
      ∀ q, ¬ q <+: entryFor v g i j → X' q = X q ∧ Y' q = Y q := by
  unfold linkDep at hl ⊢
  dsimp only at hl ⊢
  rw [hex]
  split at hl
  · rename_i h1
    cases hl
    rw [if_pos h1]
    exact ⟨X, rfl, h, fun q _ => ⟨rfl, rfl⟩⟩
  · rename_i h1
    rw [if_neg h1]
    obtain ⟨⟨Z, cz⟩, hm, hz⟩ := Option.map_eq_some_iff.1 hl
    have hdl := List.dropLast_prefix (entryFor v g i j)
    obtain ⟨Z', hm', m1, m2⟩ := mkdirp_mirror (fun q hq => h q (hq.trans hdl)) hm
    have hE : Z' (entryFor v g i j) = Z (entryFor v g i j) := by
      by_cases hp : entryFor v g i j <+: (entryFor v g i j).dropLast
      · exact m1 _ hp
      · rw [(m2 _ hp).1, (m2 _ hp).2]; exact h _ List.prefix_rfl
    have hall : ∀ q, q <+: entryFor v g i j → Z' q = Z q := by
      intro q hq
      by_cases hp : q <+: (entryFor v g i j).dropLast
      · exact m1 _ hp
      · rw [(m2 _ hp).1, (m2 _ hp).2]; exact h _ hq
    have hout : ∀ q, ¬ q <+: entryFor v g i j → Z' q = X q ∧ Z q = Y q := fun q hq => m2 q fun hp => hq (hp.trans hdl)
    rw [hm']
    simp only [Option.map_some] at hz ⊢
    rw [hE]
    split at hz
    · rename_i h2
      cases hz
      rw [if_pos h2]
      refine ⟨_, rfl, fun q hq => ?_, fun q hq => ?_⟩
      · unfold put
        split
        · rfl
        · exact hall q hq
      · have : q ≠ entryFor v g i j := by rintro rfl; exact hq List.prefix_rfl
        unfold put
        rw [if_neg this, if_neg this]
        exact hout q hq
    · rename_i h2
      cases hz
      rw [if_neg h2]
      exact ⟨_, rfl, hall, hout⟩

/-! ### what belongs where -/

/-- what package `i` writes -/
def placed (v : Env) (g : Graph Str P S) (i : Nat) (ws : List (Loc × Entry)) : List (Loc × Entry) := ws.map fun w => (home v g i ++ w.1, w.2)

theorem placed_mem {i : Nat} {l : List (Loc × Entry)} {w : Loc × Entry} (h : w ∈ placed v g i l) : ∃ r, (r, w.2) ∈ l ∧ w.1 = home v g i ++ r := by
  obtain ⟨a, ha, rfl⟩ := List.mem_map.1 h
  exact ⟨a.1, ha, rfl⟩

theorem write_ok {Placed : Nat → Prop} {Linked : Nat → Nat → Prop} {Y : Tree} {cache : List Loc} (hb : Base pk v g T0)
    (hw : ∀ i nd, i ≠ 0 → g.nodes[i]? = some nd → WrittenAs (pk.content nd.pkg) (ws nd.pkg)) (h : At pk v g T0 Placed Linked Y cache) {i : Nat}
    {nd : Node Str P S} (h0 : i ≠ 0) (hn : g.nodes[i]? = some nd) (hp : Placed i) (hT : T0 (home v g i) = none) {w : Loc × Entry}
    (hm : w ∈ placed v g i (ws nd.pkg)) : Y w.1 = some w.2 ∧ ∀ q, q <+: w.1 → q ≠ w.1 → Y q = some .dir := by
  obtain ⟨r, hr, e⟩ := placed_mem hm
  obtain ⟨h1, h2⟩ := (hw i nd h0 hn).part _ hr
  rw [e]
  have hput : ∀ r e, pk.content nd.pkg r = some e → Y (home v g i ++ r) = some e := fun r e hc =>
    (h.tree _ _).2 (.inr ⟨below_none_of hb hT, .inl ⟨i, nd, h0, hn, hp, hT, .inl ⟨r, rfl, hc⟩⟩⟩)
  refine ⟨hput _ _ h1, fun q hq hne => ?_⟩
  by_cases hqt : q <+: home v g i
  · rcases hb.way i ⟨h0, nd, hn⟩ q (hqt.trans (List.prefix_append _ _)) with h3 | h3
    · exact (h.tree _ _).2 (.inr ⟨h3, .inl ⟨i, nd, h0, hn, hp, hT, .inr ⟨rfl, hqt⟩⟩⟩)
    · exact (h.tree _ _).2 (.inl h3)
  · have : home v g i <+: q := (List.prefix_or_prefix_of_prefix hq (List.prefix_append (home v g i) r)).resolve_left hqt
    obtain ⟨z, rfl⟩ := this
    exact hput _ _ (h2 z ((List.prefix_append_right_inj _).1 hq) fun h3 => hne (by rw [h3]))

/-- before a package is started nothing is where it goes -/
theorem at_free {Placed : Nat → Prop} {Linked : Nat → Nat → Prop} {Y : Tree} {cache : List Loc} (hb : Base pk v g T0)
    (h : At pk v g T0 Placed Linked Y cache) {i : Nat} (hi : IsPkg g i) (hp : ¬ Placed i) (hT : T0 (home v g i) = none) (r : Loc) : Y (home v g i ++ r) = none := by
  cases hx : Y (home v g i ++ r) with
  | none => rfl
  | some e =>
    exfalso
    rcases (h.tree _ e).1 hx with h1 | ⟨_, h1⟩
    · rw [below_none_of hb hT] at h1; cases h1
    · exact hp (new_home hb h.linked hi (List.prefix_append _ _) h1)

/-! ### the invariant -/

/-- still to be linked -/
def Waits (x : IRun) (i j : Nat) : Prop := ∃ t ∈ x.tasks, t.pkg = i ∧ j ∈ t.links

structure IInv (pk : Pkgs P) (ws : P → List (Loc × Entry)) (v : Env) (g : Graph Str P S) (T0 : Tree) (x : IRun) (Y : Tree) : Prop where
  at_ : At pk v g T0 (fun i => i ≠ 0 ∧ i < x.next) (fun i j => i < x.next ∧ j ∈ depsOf g i ∧ ¬ Waits x i j) Y x.cache
  le : x.next ≤ g.nodes.length
  above : Sub T0 x.tree
  within : Sub x.tree Y
  closed : ∀ p q, p <+: q → x.tree q ≠ none → x.tree p ≠ none
  rest : ∀ p, Y p ≠ none → x.tree p ≠ none ∨ ∃ t ∈ x.tasks, ∃ w ∈ t.writes, p <+: w.1
  names : (x.tasks.map (·.pkg)).Nodup
  task : ∀ t ∈ x.tasks, t.pkg < x.next ∧ (∃ done, depsOf g t.pkg = done ++ t.links) ∧
    (t.writes ≠ [] → t.unread = true) ∧ (t.unread = true → t.pkg ≠ 0 ∧ T0 (home v g t.pkg) = none ∧
      ∃ nd done, g.nodes[t.pkg]? = some nd ∧ placed v g t.pkg (ws nd.pkg) = done ++ t.writes)
  fresh : ∀ t ∈ x.tasks, ∀ w ∈ t.writes, w.2 ≠ .dir → x.tree w.1 = none
  rebuild : (x.rebuild ++ ((x.tasks.filter (·.unread)).map (·.pkg)).filter (isNew v g pk.scripts T0)).Perm
    ((List.range x.next).filter (isNew v g pk.scripts T0))
  bins : (x.bins ++ ((x.tasks.filter (·.unread)).map (·.pkg)).filter (isNew v g (fun q => !(pk.bins q).isEmpty) T0)).Perm
    ((List.range x.next).filter (isNew v g (fun q => !(pk.bins q).isEmpty) T0))
  cnt : x.count + (x.tasks.filter (·.unread)).length = ((List.range x.next).filter (isNew v g (fun _ => true) T0)).length

theorem iinit_tree (hb : Base pk v g T0) : (iinit T0).tree = T0 := by
  funext p
  simp only [iinit, put]
  split
  · rename_i h; rw [h, hb.root]
  · rfl

theorem base_closed (hb : Base pk v g T0) (p q : Loc) (hpq : p <+: q) (hq : T0 q ≠ none) : T0 p ≠ none := by
  obtain ⟨r, rfl⟩ := hpq
  intro hp
  exact hq (below_none_of hb hp)

theorem at_closed {A : Nat → Prop} {B : Nat → Nat → Prop} {Y : Tree} {c : List Loc} (hb : Base pk v g T0) (h : At pk v g T0 A B Y c) (p q : Loc)
    (hpq : p <+: q) (hq : Y q ≠ none) : Y p ≠ none := by
  have hg := hb.inst
  obtain ⟨e, he⟩ := Option.ne_none_iff_exists'.1 hq
  cases hT : T0 p with
  | some e' => rw [(h.tree p e').2 (.inl hT)]; simp
  | none =>
    have hadd : ∀ e', New pk v g T0 A B p e' → Y p ≠ none := fun e' hN => by rw [(h.tree p e').2 (.inr ⟨hT, hN⟩)]; simp
    rcases (h.tree q e).1 he with h1 | ⟨_, ⟨i, nd, i0, hn, hA, hTh, ⟨r, rfl, hc⟩ | ⟨_, h1⟩⟩ | ⟨i, j, hl, hTe, ⟨rfl, _⟩ | ⟨_, h1⟩⟩⟩
    · exact absurd hT (base_closed hb p q hpq (by rw [h1]; simp))
    · rcases List.prefix_or_prefix_of_prefix hpq (List.prefix_append (home v g i) r) with h2 | ⟨z, rfl⟩
      · exact hadd .dir (.inl ⟨i, nd, i0, hn, hA, hTh, .inr ⟨rfl, h2⟩⟩)
      · obtain ⟨y, hy⟩ := (List.prefix_append_right_inj _).1 hpq
        by_cases hy0 : y = []
        · rw [hy0, List.append_nil] at hy
          exact hadd e (.inl ⟨i, nd, i0, hn, hA, hTh, .inl ⟨z, rfl, by rw [hy]; exact hc⟩⟩)
        · exact hadd .dir (.inl ⟨i, nd, i0, hn, hA, hTh, .inl ⟨z, rfl, hg.folders i nd z y i0 hn hy0 (by rw [hy, hc]; simp)⟩⟩)
    · exact hadd .dir (.inl ⟨i, nd, i0, hn, hA, hTh, .inr ⟨rfl, hpq.trans h1⟩⟩)
    · by_cases hpe : p = entryFor v g i j
      · rw [hpe]; exact hq
      · exact hadd .dir (.inr ⟨i, j, hl, hTe, .inr ⟨rfl, prefix_dropLast hpq hpe⟩⟩)
    · exact hadd .dir (.inr ⟨i, j, hl, hTe, .inr ⟨rfl, hpq.trans h1⟩⟩)

theorem iinv_init (hb : Base pk v g T0) : IInv pk ws v g T0 (iinit T0) T0 := by
  have hT := iinit_tree hb
  refine ⟨?_, Nat.zero_le _, by rw [hT]; exact fun _ _ h => h, by rw [hT]; exact fun _ _ h => h, by rw [hT]; exact base_closed hb, by rw [hT]; exact fun _ h => .inl h, List.nodup_nil,
    fun t ht => (by cases ht), fun t ht => (by cases ht), List.Perm.refl _, List.Perm.refl _, rfl⟩
  exact { tree := by
            intro p e
            constructor
            · intro h; exact .inl h
            · rintro (h | ⟨_, ⟨i, nd, _, _, ⟨_, h⟩, _⟩ | ⟨i, j, ⟨h, _⟩, _⟩⟩)
              · exact h
              · exact absurd h (Nat.not_lt_zero _)
              · exact absurd h (Nat.not_lt_zero _)
          linked := fun i j h => absurd h.1 (Nat.not_lt_zero _)
          nil := by simp [iinit]
          dirs := by intro c hc; rw [List.mem_singleton.1 hc]; exact hb.root
          closed := by intro c hc; rw [List.mem_singleton.1 hc]; simp [iinit]
          homes := by intro i hi h; exact absurd (List.mem_singleton.1 h) (home_ne_nil v g i)
          scopes := fun i j h => absurd h.1 (Nat.not_lt_zero _) }

theorem mem_set_cases {l : List ITask} {k : Nat} {a t : ITask} (h : t ∈ l.set k a) : t = a ∨ ∃ m, l[m]? = some t ∧ m ≠ k := by
  obtain ⟨m, hm⟩ := List.mem_iff_getElem?.1 h
  rw [List.getElem?_set] at hm
  split at hm
  · cases hm' : decide (k < l.length) with
    | _ => split at hm <;> first | (cases hm; exact .inl rfl) | cases hm
  · exact .inr ⟨m, hm, by omega⟩

theorem map_set_same {l : List ITask} {k : Nat} {a b : ITask} (h : l[k]? = some a) (hab : b.pkg = a.pkg) : (l.set k b).map (·.pkg) = l.map (·.pkg) := by
  rw [List.map_set]
  apply List.ext_getElem?
  intro m
  rw [List.getElem?_set]
  split
  · rename_i hm
    subst hm
    rw [List.getElem?_map, h]
    simp [(List.getElem?_eq_some_iff.1 h).1, hab]
  · rfl

/-- two packages under way are different -/
theorem task_inj {x : IRun} {Y : Tree} (h : IInv pk ws v g T0 x Y) {m k : Nat} {a b : ITask} (ha : x.tasks[m]? = some a) (hb : x.tasks[k]? = some b)
    (hab : a.pkg = b.pkg) : m = k := by
  have h6 := List.getElem?_map (f := fun t : ITask => t.pkg) (l := x.tasks) (i := m)
  have h7 := List.getElem?_map (f := fun t : ITask => t.pkg) (l := x.tasks) (i := k)
  rw [ha] at h6
  rw [hb] at h7
  have hll : m < (x.tasks.map fun t => t.pkg).length := by
    have := (List.getElem?_eq_some_iff.1 ha).1; simpa using this
  exact (List.getElem?_inj hll h.names).1 (by rw [h6, h7]; simp [hab])

theorem filter_set_same {l : List ITask} {k : Nat} {a b : ITask} (h : l[k]? = some a) (hab : b.unread = a.unread) (hp : b.pkg = a.pkg) :
    ((l.set k b).filter (·.unread)).map (·.pkg) = (l.filter (·.unread)).map (·.pkg) := by
  induction l generalizing k with
  | nil => cases h
  | cons c l ih =>
    cases k with
    | zero =>
      cases h
      simp only [List.set_cons_zero, List.filter_cons, hab]
      split <;> simp [hp]
    | succ k =>
      simp only [List.set_cons_succ, List.filter_cons]
      have := ih (k := k) (by simpa using h)
      split <;> simp [this]

theorem filter_set_read {l : List ITask} {k : Nat} {a b : ITask} (h : l[k]? = some a) (ha : a.unread = true) (hb : b.unread = false) :
    (a.pkg :: ((l.set k b).filter (·.unread)).map (·.pkg)).Perm ((l.filter (·.unread)).map (·.pkg)) := by
  induction l generalizing k with
  | nil => cases h
  | cons c l ih =>
    cases k with
    | zero =>
      cases h
      simp [ha, hb]
    | succ k =>
      simp only [List.set_cons_succ, List.filter_cons]
      have := ih (k := k) (by simpa using h)
      split
      · simp only [List.map_cons]
        exact (List.Perm.swap _ _ _).trans (this.cons _)
      · exact this

theorem filter_erase_read {l : List ITask} {k : Nat} {a : ITask} (h : l[k]? = some a) (ha : a.unread = false) :
    ((l.eraseIdx k).filter (·.unread)) = l.filter (·.unread) := by
  induction l generalizing k with
  | nil => cases h
  | cons c l ih =>
    cases k with
    | zero => cases h; simp [ha]
    | succ k =>
      simp only [List.eraseIdx_cons_succ, List.filter_cons]
      rw [ih (k := k) (by simpa using h)]

theorem exists_set {l : List ITask} {k : Nat} {a b : ITask} {p : ITask → Prop} (h : l[k]? = some a) (hab : p b ↔ p a) :
    (∃ t ∈ l.set k b, p t) ↔ ∃ t ∈ l, p t := by
  have hkl := (List.getElem?_eq_some_iff.1 h).1
  constructor
  · rintro ⟨t, ht, hp⟩
    rcases mem_set_cases ht with rfl | ⟨m, hm, _⟩
    · exact ⟨a, List.mem_of_getElem? h, hab.1 hp⟩
    · exact ⟨t, List.mem_of_getElem? hm, hp⟩
  · rintro ⟨t, ht, hp⟩
    obtain ⟨m, hm⟩ := List.mem_iff_getElem?.1 ht
    by_cases hmk : m = k
    · subst hmk
      rw [h] at hm
      cases hm
      exact ⟨b, List.mem_set hkl _, hab.2 hp⟩
    · exact ⟨t, List.mem_of_getElem? (i := m) (by rw [List.getElem?_set_ne (by omega)]; exact hm), hp⟩

theorem new_mono {A A' : Nat → Prop} {B B' : Nat → Nat → Prop} (hA : ∀ i, A i → A' i) (hB : ∀ i j, B i j → B' i j) {p : Loc} {e : Entry}
    (h : New pk v g T0 A B p e) : New pk v g T0 A' B' p e := by
  rcases h with ⟨i, nd, h0, hn, hp, h⟩ | ⟨i, j, hl, h⟩
  · exact .inl ⟨i, nd, h0, hn, hA i hp, h⟩
  · exact .inr ⟨i, j, hB i j hl, h⟩

theorem at_sub {A A' : Nat → Prop} {B B' : Nat → Nat → Prop} {t t' : Tree} {c c' : List Loc} (hA : ∀ i, A i → A' i) (hB : ∀ i j, B i j → B' i j)
    (h : At pk v g T0 A B t c) (h' : At pk v g T0 A' B' t' c') : Sub t t' := by
  intro p e hp
  rw [h'.tree]
  rcases (h.tree p e).1 hp with h1 | ⟨h1, h2⟩
  · exact .inl h1
  · exact .inr ⟨h1, new_mono hA hB h2⟩

theorem range_filter_succ (f : Nat → Bool) (n : Nat) : (List.range (n + 1)).filter f = (List.range n).filter f ++ [n].filter f := by
  rw [List.range_succ, List.filter_append]

/-- a package is started -/
theorem istart (hb : Base pk v g T0) (hw : ∀ i nd, i ≠ 0 → g.nodes[i]? = some nd → WrittenAs (pk.content nd.pkg) (ws nd.pkg))
    {x : IRun} {Y : Tree} (h : IInv pk ws v g T0 x Y) {nd : Node Str P S} (hn : g.nodes[x.next]? = some nd) :
    ∃ Y', IInv pk ws v g T0 { x with next := x.next + 1, tasks := x.tasks ++ [begin ws v g x nd] } Y' := by
  have hg := hb.inst
  have hlt := (List.getElem?_eq_some_iff.1 hn).1
  have hpkg : (begin ws v g x nd).pkg = x.next := by unfold begin; split <;> rfl
  have hlinks : (begin ws v g x nd).links = depsOf g x.next := by unfold begin; split <;> rfl
  have hnp : ¬ (x.next ≠ 0 ∧ x.next < x.next) := by omega
  have hnot : ∀ t ∈ x.tasks, t.pkg ≠ x.next := fun t ht e => by have := (h.task t ht).1; omega
  have hnames : ((x.tasks ++ [begin ws v g x nd]).map (·.pkg)).Nodup := by
    rw [List.map_append, List.nodup_append]
    refine ⟨h.names, by simp, ?_⟩
    intro a ha b hb' hab
    simp only [List.map_cons, List.map_nil, List.mem_singleton] at hb'
    obtain ⟨t, ht, e⟩ := List.mem_map.1 ha
    exact hnot t ht (by rw [e, hab, hb', hpkg])
  have hlinked : ∀ i j, (i < x.next ∧ j ∈ depsOf g i ∧ ¬ Waits x i j) ↔
      (i < x.next + 1 ∧ j ∈ depsOf g i ∧ ¬ Waits { x with next := x.next + 1, tasks := x.tasks ++ [begin ws v g x nd] } i j) := by
    intro i j
    have hwt : Waits { x with next := x.next + 1, tasks := x.tasks ++ [begin ws v g x nd] } i j ↔ Waits x i j ∨ (i = x.next ∧ j ∈ depsOf g x.next) := by
      constructor
      · rintro ⟨t, ht, h1, h2⟩
        rcases List.mem_append.1 ht with ht | ht
        · exact .inl ⟨t, ht, h1, h2⟩
        · cases List.mem_singleton.1 ht
          exact .inr ⟨by rw [← h1, hpkg], by rw [← hlinks]; exact h2⟩
      · rintro (⟨t, ht, h1, h2⟩ | ⟨h1, h2⟩)
        · exact ⟨t, List.mem_append_left _ ht, h1, h2⟩
        · exact ⟨_, List.mem_append_right _ (List.mem_singleton.2 rfl), by rw [hpkg, h1], by rw [hlinks]; exact h2⟩
    rw [hwt]
    constructor
    · rintro ⟨h1, h2, h3⟩
      exact ⟨by omega, h2, by rintro (h4 | ⟨h4, _⟩); exact h3 h4; omega⟩
    · rintro ⟨h1, h2, h3⟩
      refine ⟨?_, h2, fun h4 => h3 (.inl h4)⟩
      rcases Nat.lt_succ_iff_lt_or_eq.1 h1 with h4 | h4
      · exact h4
      · exact absurd (.inr ⟨h4, by rw [← h4]; exact h2⟩) h3
  by_cases hc : x.next = 0 ∨ x.tree (home v g x.next) ≠ none
  · -- nothing is written
    have hbg : begin ws v g x nd = ⟨x.next, [], false, depsOf g x.next⟩ := by unfold begin; rw [if_pos hc]
    have hold : x.next = 0 ∨ T0 (home v g x.next) ≠ none := by
      rcases hc with hc | hc
      · exact .inl hc
      · by_cases h0 : x.next = 0
        · exact .inl h0
        · right
          intro hT
          have := at_free hb h.at_ ⟨h0, nd, hn⟩ hnp hT []
          rw [List.append_nil] at this
          cases hx : x.tree (home v g x.next) with
          | none => exact hc hx
          | some e => rw [h.within _ _ hx] at this; cases this
    have hat : At pk v g T0 (fun i => i ≠ 0 ∧ i < x.next + 1) (fun i j => i < x.next ∧ j ∈ depsOf g i ∧ ¬ Waits x i j) Y x.cache := by
      by_cases h0 : x.next = 0
      · exact at_congr (fun i => by omega) (fun _ _ => Iff.rfl) h.at_
      · obtain ⟨y, hy, hA⟩ := place_step (x := ⟨Y, x.cache, [], []⟩) hb h.at_ ⟨h0, nd, hn⟩ hnp
        unfold placeNode at hy
        rw [if_neg h0, hn] at hy
        dsimp only at hy
        rw [if_pos (by
          cases hT : T0 (home v g x.next) with
          | none => exact absurd hT (hold.resolve_left h0)
          | some e => rw [(h.at_.tree _ e).2 (.inl hT)]; simp)] at hy
        cases hy
        exact at_congr (fun i => by omega) (fun _ _ => Iff.rfl) hA
    have hnew : ∀ sel : P → Bool, isNew v g sel T0 x.next = false := by
      intro sel
      rcases hold with h1 | h1
      · simp [isNew, h1]
      · cases hT : T0 (home v g x.next) with
        | none => exact absurd hT h1
        | some e => simp [isNew, hT]
    have hf : (x.tasks ++ [begin ws v g x nd]).filter (·.unread) = x.tasks.filter (·.unread) := by
      rw [List.filter_append, hbg]; simp
    refine ⟨Y, at_congr (fun _ => Iff.rfl) hlinked hat, hlt, h.above, h.within, h.closed, ?_, hnames, ?_, ?_, ?_, ?_, ?_⟩
    · intro p hp
      rcases h.rest p hp with h1 | ⟨t, h1, h2⟩
      · exact .inl h1
      · exact .inr ⟨t, List.mem_append_left _ h1, h2⟩
    · intro t ht
      dsimp only at ht ⊢
      rcases List.mem_append.1 ht with ht | ht
      · obtain ⟨a, b⟩ := h.task t ht
        exact ⟨by omega, b⟩
      · rw [List.mem_singleton.1 ht, hbg]
        exact ⟨by show x.next < x.next + 1; omega, ⟨[], rfl⟩, fun h => absurd rfl h, fun h => (by cases h)⟩
    · intro t ht w hm hd
      dsimp only at ht ⊢
      rcases List.mem_append.1 ht with ht | ht
      · exact h.fresh t ht w hm hd
      · rw [List.mem_singleton.1 ht, hbg] at hm
        cases hm
    · dsimp only
      rw [hf, range_filter_succ]
      simpa [hnew] using h.rebuild
    · dsimp only
      rw [hf, range_filter_succ]
      simpa [hnew] using h.bins
    · dsimp only
      rw [hf, range_filter_succ]
      simpa [hnew] using h.cnt
  · -- the package is extracted
    have hbg : begin ws v g x nd = ⟨x.next, placed v g x.next (ws nd.pkg), true, depsOf g x.next⟩ := by unfold begin; rw [if_neg hc]; rfl
    rw [not_or, not_not] at hc
    obtain ⟨h0, hnone⟩ := hc
    have hT : T0 (home v g x.next) = none := by
      cases hT : T0 (home v g x.next) with
      | none => rfl
      | some e => rw [h.above _ _ hT] at hnone; cases hnone
    have hip : IsPkg g x.next := ⟨h0, nd, hn⟩
    have hfree := at_free hb h.at_ hip hnp hT
    obtain ⟨y, hy, hA⟩ := place_step (x := ⟨Y, x.cache, [], []⟩) hb h.at_ hip hnp
    have hcache : y.cache = x.cache := by
      unfold placeNode at hy
      rw [if_neg h0, hn] at hy
      dsimp only at hy
      have := hfree []
      rw [List.append_nil] at this
      rw [if_neg (by rw [this]; simp)] at hy
      obtain ⟨t, _, rfl⟩ := Option.map_eq_some_iff.1 hy
      rfl
    rw [hcache] at hA
    have hA : At pk v g T0 (fun i => i ≠ 0 ∧ i < x.next + 1) (fun i j => i < x.next ∧ j ∈ depsOf g i ∧ ¬ Waits x i j) y.tree x.cache :=
      at_congr (fun i => by omega) (fun _ _ => Iff.rfl) hA
    have hsub : Sub Y y.tree := at_sub (fun i hi => ⟨hi.1, by omega⟩) (fun _ _ h => h) h.at_ hA
    have hnew : ∀ sel : P → Bool, isNew v g sel T0 x.next = sel nd.pkg := by
      intro sel
      simp [isNew, h0, hT, hn]
    have hf : (x.tasks ++ [begin ws v g x nd]).filter (·.unread) = x.tasks.filter (·.unread) ++ [begin ws v g x nd] := by
      rw [List.filter_append, hbg]; simp
    have hfm : ((x.tasks ++ [begin ws v g x nd]).filter (·.unread)).map (·.pkg) = (x.tasks.filter (·.unread)).map (·.pkg) ++ [x.next] := by
      rw [hf, List.map_append, List.map_cons, hpkg]; rfl
    refine ⟨y.tree, at_congr (fun _ => Iff.rfl) hlinked hA, hlt, h.above, fun p e hp => hsub _ _ (h.within _ _ hp), h.closed, ?_, hnames, ?_, ?_, ?_, ?_, ?_⟩
    · intro p hp
      dsimp only
      have hmine : ∀ r, (∃ w ∈ ws nd.pkg, r <+: w.1) → p <+: home v g x.next ++ r →
          ∃ t ∈ x.tasks ++ [begin ws v g x nd], ∃ w ∈ t.writes, p <+: w.1 := by
        rintro r ⟨w, hw1, hw2⟩ hpr
        refine ⟨_, List.mem_append_right _ (List.mem_singleton.2 rfl), (home v g x.next ++ w.1, w.2), ?_, ?_⟩
        · rw [hbg]; exact List.mem_map.2 ⟨w, hw1, rfl⟩
        · exact hpr.trans ((List.prefix_append_right_inj _).2 hw2)
      have hw1 : ∀ r e, pk.content nd.pkg r = some e → ∃ w ∈ ws nd.pkg, r <+: w.1 := by
        intro r e hr
        rcases (hw _ nd h0 hn).all r e hr with h1 | ⟨w, h1, h2, _⟩
        · exact ⟨_, h1, List.prefix_rfl⟩
        · exact ⟨w, h1, h2⟩
      have hY : Y p ≠ none → x.tree p ≠ none ∨ ∃ t ∈ x.tasks ++ [begin ws v g x nd], ∃ w ∈ t.writes, p <+: w.1 := by
        intro hp'
        rcases h.rest p hp' with h1 | ⟨t, h1, h2⟩
        · exact .inl h1
        · exact .inr ⟨t, List.mem_append_left _ h1, h2⟩
      obtain ⟨e, he⟩ := Option.ne_none_iff_exists'.1 hp
      rcases (hA.tree p e).1 he with h1 | ⟨h1, ⟨i, nd', i0, hn', ⟨_, hi⟩, hT', h2⟩ | h2⟩
      · exact .inl (by rw [h.above _ _ h1]; simp)
      · rcases Nat.lt_succ_iff_lt_or_eq.1 hi with hi | hi
        · exact hY (by rw [(h.at_.tree p e).2 (.inr ⟨h1, .inl ⟨i, nd', i0, hn', ⟨i0, hi⟩, hT', h2⟩⟩)]; simp)
        · subst hi
          rw [hn] at hn'
          cases hn'
          right
          rcases h2 with ⟨r, h3, h4⟩ | ⟨_, h3⟩
          · exact hmine r (hw1 r e h4) (by rw [h3])
          · exact hmine [] (hw1 [] .dir (hg.dirs _ _ h0 hn)) (h3.trans (List.prefix_append _ _))
      · exact hY (by rw [(h.at_.tree p e).2 (.inr ⟨h1, .inr h2⟩)]; simp)
    · intro t ht
      dsimp only at ht ⊢
      rcases List.mem_append.1 ht with ht | ht
      · obtain ⟨a, b⟩ := h.task t ht
        exact ⟨by omega, b⟩
      · rw [List.mem_singleton.1 ht, hbg]
        exact ⟨by show x.next < x.next + 1; omega, ⟨[], rfl⟩, fun _ => rfl, fun _ => ⟨h0, hT, nd, [], hn, rfl⟩⟩
    · intro t ht w hm hd
      dsimp only at ht ⊢
      rcases List.mem_append.1 ht with ht | ht
      · exact h.fresh t ht w hm hd
      · rw [List.mem_singleton.1 ht, hbg] at hm
        obtain ⟨r, _, e⟩ := placed_mem hm
        rw [e]
        cases hx : x.tree (home v g x.next ++ r) with
        | none => rfl
        | some e => have := hfree r; rw [h.within _ _ hx] at this; cases this
    · dsimp only
      rw [hfm, range_filter_succ, List.filter_append, ← List.append_assoc]
      exact h.rebuild.append_right _
    · dsimp only
      rw [hfm, range_filter_succ, List.filter_append, ← List.append_assoc]
      exact h.bins.append_right _
    · dsimp only
      rw [hf, range_filter_succ, List.length_append, List.length_append, ← h.cnt]
      simp [hnew]
      omega

/-- an entry is written -/
theorem iwrite (hb : Base pk v g T0) (hw : ∀ i nd, i ≠ 0 → g.nodes[i]? = some nd → WrittenAs (pk.content nd.pkg) (ws nd.pkg))
    {x : IRun} {Y : Tree} (h : IInv pk ws v g T0 x Y) {k i : Nat} {w : Loc × Entry} {rest : List (Loc × Entry)} {b : Bool} {ls : List Nat}
    (hk : x.tasks[k]? = some ⟨i, w :: rest, b, ls⟩) :
    ∃ t, writeAt x.tree w.1 w.2 = some t ∧ IInv pk ws v g T0 { x with tree := t, tasks := x.tasks.set k ⟨i, rest, b, ls⟩ } Y := by
  have hg := hb.inst
  have hin := List.mem_of_getElem? hk
  obtain ⟨hi, hdeps, hun, hread⟩ := h.task _ hin
  dsimp only at hi hdeps hun hread
  have hb1 := hun (by simp)
  obtain ⟨h0, hT, nd, done, hn, hpl⟩ := hread hb1
  have hwm : w ∈ placed v g i (ws nd.pkg) := by rw [hpl]; simp
  obtain ⟨h1, h2⟩ := write_ok hb hw h.at_ h0 hn ⟨h0, hi⟩ hT hwm
  obtain ⟨t', e1, s1, s2, e2, e3, e4⟩ := writeAt_sub h.within h1 h2 (fun hd => h.fresh _ hin w (by simp) hd)
  have hwt : ∀ a j, Waits { x with tree := t', tasks := x.tasks.set k ⟨i, rest, b, ls⟩ } a j ↔ Waits x a j := fun a j =>
    exists_set (p := fun t => t.pkg = a ∧ j ∈ t.links) hk Iff.rfl
  have hfm := filter_set_same (b := ⟨i, rest, b, ls⟩) hk rfl rfl
  refine ⟨t', e1, at_congr (fun _ => Iff.rfl) (fun a j => by rw [hwt]) h.at_, h.le, fun p e hp => s1 _ _ (h.above _ _ hp), s2, ?_, ?_,
    by rw [show (x.tasks.set k ⟨i, rest, b, ls⟩).map (·.pkg) = x.tasks.map (·.pkg) from map_set_same hk rfl]; exact h.names, ?_, ?_,
    by dsimp only; rw [hfm]; exact h.rebuild, by dsimp only; rw [hfm]; exact h.bins, ?_⟩
  · intro p q hpq hq
    have hmono : x.tree p ≠ none → t' p ≠ none := by
      intro hx
      obtain ⟨e, he⟩ := Option.ne_none_iff_exists'.1 hx
      rw [s1 _ _ he]; simp
    rcases e4 q hq with h3 | h3
    · exact hmono (h.closed p q hpq h3)
    · exact e3 p (hpq.trans h3)
  · intro p hp
    dsimp only
    rcases h.rest p hp with h3 | ⟨t, h3, u, h4, h5⟩
    · left
      cases hx : x.tree p with
      | none => exact absurd hx h3
      | some e => rw [s1 _ _ hx]; simp
    · obtain ⟨m, hm⟩ := List.mem_iff_getElem?.1 h3
      by_cases hmk : m = k
      · subst hmk
        rw [hk] at hm
        cases hm
        rcases List.mem_cons.1 h4 with rfl | h4
        · exact .inl (e3 p h5)
        · exact .inr ⟨_, List.mem_set (List.getElem?_eq_some_iff.1 hk).1 _, u, h4, h5⟩
      · exact .inr ⟨t, List.mem_of_getElem? (i := m) (by rw [List.getElem?_set_ne (by omega)]; exact hm), u, h4, h5⟩
  · intro t ht
    rcases mem_set_cases ht with rfl | ⟨m, hm, _⟩
    · exact ⟨hi, hdeps, fun _ => hb1, fun _ => ⟨h0, hT, nd, done ++ [w], hn, by rw [hpl]; simp⟩⟩
    · exact h.task t (List.mem_of_getElem? hm)
  · intro t ht u hu hd
    dsimp only
    have key : x.tree u.1 = none ∧ u.1 ≠ w.1 ∧ ∃ a nd', a ≠ 0 ∧ a < x.next ∧ g.nodes[a]? = some nd' ∧ T0 (home v g a) = none ∧ u ∈ placed v g a (ws nd'.pkg) := by
      rcases mem_set_cases ht with rfl | ⟨m, hm, hmk⟩
      · dsimp only at hu
        have hup : u ∈ placed v g i (ws nd.pkg) := by rw [hpl]; simp [hu]
        refine ⟨h.fresh _ hin u (by simp [hu]) hd, ?_, i, nd, h0, hi, hn, hT, hup⟩
        intro huw
        have ho : (placed v g i (ws nd.pkg)).Pairwise fun a b => a.1 = b.1 → a.2 = .dir ∧ True := by
          unfold placed
          rw [List.pairwise_map]
          exact (hw i nd h0 hn).once.imp fun {a b} hab he => ⟨hab (by simpa using he), trivial⟩
        rw [hpl, List.pairwise_append] at ho
        have := (List.pairwise_cons.1 ho.2.1).1 u hu huw.symm
        have h5 := (write_ok hb hw h.at_ h0 hn ⟨h0, hi⟩ hT hup).1
        rw [huw, h1] at h5
        exact hd (by rw [← Option.some.inj h5]; exact this.1)
      · have htm := List.mem_of_getElem? hm
        obtain ⟨a1, _, a2, a3⟩ := h.task t htm
        obtain ⟨b0, bT, nd', done', bn, bp⟩ := a3 (a2 (by intro e; rw [e] at hu; cases hu))
        have hup : u ∈ placed v g t.pkg (ws nd'.pkg) := by rw [bp]; simp [hu]
        refine ⟨h.fresh t htm u hu hd, ?_, t.pkg, nd', b0, a1, bn, bT, hup⟩
        intro huw
        obtain ⟨r, _, er⟩ := placed_mem hup
        obtain ⟨r', _, er'⟩ := placed_mem hwm
        have hij : t.pkg = i := home_apart hg ⟨b0, nd', bn⟩ ⟨h0, nd, hn⟩ (x := w.1) (by rw [← huw, er]; exact List.prefix_append _ _)
          (by rw [er']; exact List.prefix_append _ _)
        exact hmk (task_inj h hm hk hij)
    obtain ⟨a1, a2, a, nd', b0, b1, b2, b3, b4⟩ := key
    cases hx : t' u.1 with
    | none => rfl
    | some e' =>
      exfalso
      rcases e4 u.1 (by rw [hx]; simp) with h3 | h3
      · exact h3 a1
      · have h4 := h2 _ h3 a2
        rw [(write_ok hb hw h.at_ b0 b2 ⟨b0, b1⟩ b3 b4).1] at h4
        exact hd (Option.some.inj h4)
  · dsimp only
    have := congrArg List.length hfm
    simp only [List.length_map] at this
    rw [this]
    exact h.cnt

/-- the manifest is read -/
theorem iread {x : IRun} {Y : Tree} (h : IInv pk ws v g T0 x Y) {k i : Nat} {ls : List Nat} (hk : x.tasks[k]? = some ⟨i, [], true, ls⟩)
    {nd : Node Str P S} (hn : g.nodes[i]? = some nd) :
    IInv pk ws v g T0 { x with
      tasks := x.tasks.set k ⟨i, [], false, ls⟩
      rebuild := if pk.scripts nd.pkg then x.rebuild ++ [i] else x.rebuild
      bins := if (pk.bins nd.pkg).isEmpty then x.bins else x.bins ++ [i]
      count := x.count + 1 } Y := by
  have hin := List.mem_of_getElem? hk
  obtain ⟨hi, hdeps, hun, hread⟩ := h.task _ hin
  dsimp only at hi hdeps hun hread
  obtain ⟨h0, hT, _⟩ := hread rfl
  have hwt : ∀ a j, (∃ t ∈ x.tasks.set k ⟨i, [], false, ls⟩, t.pkg = a ∧ j ∈ t.links) ↔ Waits x a j := fun a j =>
    exists_set (p := fun t => t.pkg = a ∧ j ∈ t.links) hk Iff.rfl
  have hfm := filter_set_read (b := ⟨i, [], false, ls⟩) hk rfl rfl
  have hnew : ∀ sel : P → Bool, isNew v g sel T0 i = sel nd.pkg := by
    intro sel
    simp [isNew, h0, hT, hn]
  have hadd : ∀ (sel : P → Bool) (l : List Nat) (z : List Nat), (l ++ ((x.tasks.filter (·.unread)).map (·.pkg)).filter (isNew v g sel T0)).Perm z →
      ((if sel nd.pkg = true then l ++ [i] else l) ++ (((x.tasks.set k ⟨i, [], false, ls⟩).filter (·.unread)).map (·.pkg)).filter (isNew v g sel T0)).Perm z := by
    intro sel l z hz
    refine List.Perm.trans ?_ hz
    have h1 := hfm.filter (isNew v g sel T0)
    dsimp only at h1
    rw [List.filter_cons, hnew] at h1
    split
    · rename_i hs
      rw [if_pos hs] at h1
      rw [List.append_assoc]
      exact h1.append_left _
    · rename_i hs
      rw [if_neg hs] at h1
      exact h1.append_left _
  refine ⟨at_congr (fun _ => Iff.rfl) (fun a j => by unfold Waits; dsimp only; rw [hwt a j]; rfl) h.at_, h.le, h.above, h.within, h.closed, ?_,
    by rw [show (x.tasks.set k ⟨i, [], false, ls⟩).map (·.pkg) = x.tasks.map (·.pkg) from map_set_same hk rfl]; exact h.names, ?_, ?_,
    hadd pk.scripts _ _ h.rebuild, ?_, ?_⟩
  · intro p hp
    rcases h.rest p hp with h1 | h1
    · exact .inl h1
    · exact .inr ((exists_set (b := ⟨i, [], false, ls⟩) (p := fun t => ∃ w ∈ t.writes, p <+: w.1) hk Iff.rfl).2 h1)
  · intro t ht
    rcases mem_set_cases ht with rfl | ⟨m, hm, _⟩
    · exact ⟨hi, hdeps, fun e => absurd rfl e, fun e => (by cases e)⟩
    · exact h.task t (List.mem_of_getElem? hm)
  · intro t ht
    rcases mem_set_cases ht with rfl | ⟨m, hm, _⟩
    · intro w hw; cases hw
    · exact h.fresh t (List.mem_of_getElem? hm)
  · have := hadd (fun q => !(pk.bins q).isEmpty) _ _ h.bins
    dsimp only at this ⊢
    cases hbn : (pk.bins nd.pkg).isEmpty
    · simpa [hbn] using this
    · simpa [hbn] using this
  · dsimp only
    have h1 := hfm.length_eq
    simp only [List.length_cons, List.length_map] at h1
    have := h.cnt
    omega

/-- a dependency is linked -/
theorem ilink (hb : Base pk v g T0) {x : IRun} {Y : Tree} (h : IInv pk ws v g T0 x Y) (hw : ∀ i nd, i ≠ 0 → g.nodes[i]? = some nd → WrittenAs (pk.content nd.pkg) (ws nd.pkg))
    {k i j : Nat} {rest : List Nat} (hk : x.tasks[k]? = some ⟨i, [], false, j :: rest⟩) :
    ∃ y Y', linkDep v g i (x.tree, x.cache) j = some y ∧
      IInv pk ws v g T0 { x with tree := y.1, cache := y.2, tasks := x.tasks.set k ⟨i, [], false, rest⟩ } Y' ∧ Sub x.tree y.1 := by
  have hg := hb.inst
  have hin := List.mem_of_getElem? hk
  obtain ⟨hi, ⟨done, hdeps⟩, _, _⟩ := h.task _ hin
  dsimp only at hi hdeps
  have hs : Src g i := (src_lt hg).1 (by have := h.le; omega)
  have hj : j ∈ depsOf g i := by rw [hdeps]; simp
  have hjp := dep_pkg hg hj
  have hjr : j ∉ rest := by
    have := List.Nodup.of_map _ (hg.single i)
    rw [hdeps, List.nodup_append] at this
    exact (List.nodup_cons.1 this.2.1).1
  have hnl : ¬ (i < x.next ∧ j ∈ depsOf g i ∧ ¬ Waits x i j) := fun hx => hx.2.2 ⟨_, hin, rfl, by simp⟩
  have hp : i = 0 ∨ (i ≠ 0 ∧ i < x.next) := by omega
  obtain ⟨⟨Y', c'⟩, hy, hA⟩ := link_step hb h.at_ hs hp hj hnl
  -- nothing is missing on the way
  have hclear : ∀ p, p <+: entryFor v g i j → ∀ t ∈ x.tasks, ∀ w ∈ t.writes, p <+: w.1 → p ≠ [] → x.tree p ≠ none := by
    intro p hpe t ht w hwt hpw hp0
    obtain ⟨_, _, a2, a3⟩ := h.task t ht
    obtain ⟨b0, bT, nd', done', bn, bp⟩ := a3 (a2 (by intro e; rw [e] at hwt; cases hwt))
    have hup : w ∈ placed v g t.pkg (ws nd'.pkg) := by rw [bp]; simp [hwt]
    obtain ⟨r, _, er⟩ := placed_mem hup
    have hne : t.pkg ≠ i := by
      intro e
      obtain ⟨m, hm⟩ := List.mem_iff_getElem?.1 ht
      have := task_inj h hm hk e
      subst this
      rw [hk] at hm
      cases hm
      cases hwt
    have hhead : w.1.head? = some storeName := head_of_home (v := v) (g := g) (i := t.pkg) (p := w.1) (by rw [er]; exact List.prefix_append _ _)
    rcases hs with rfl | hip
    · exact absurd (head_of_prefix hpw hp0 hhead) (root_entry_head hg hjp hpe)
    · by_cases hph : p <+: home v g i
      · -- the package itself has been written
        refine h.closed _ _ hph ?_
        have hYhome : Y (home v g i) ≠ none := by
          cases hT : T0 (home v g i) with
          | some e => rw [(h.at_.tree _ e).2 (.inl hT)]; simp
          | none =>
            obtain ⟨nd, hn⟩ := hip.2
            rw [(h.at_.tree _ .dir).2 (.inr ⟨hT, .inl ⟨i, nd, hip.1, hn, ⟨hip.1, hi⟩, hT, .inr ⟨rfl, List.prefix_rfl⟩⟩⟩)]; simp
        rcases h.rest _ hYhome with h1 | ⟨t', h1, u, h2, h3⟩
        · exact h1
        · exfalso
          obtain ⟨_, _, c2, c3⟩ := h.task t' h1
          obtain ⟨d0, dT, nd'', done'', dn, dp⟩ := c3 (c2 (by intro e; rw [e] at h2; cases h2))
          have hup' : u ∈ placed v g t'.pkg (ws nd''.pkg) := by rw [dp]; simp [h2]
          obtain ⟨r', _, er'⟩ := placed_mem hup'
          have e := home_apart hg hip ⟨d0, nd'', dn⟩ h3 (by rw [er']; exact List.prefix_append _ _)
          obtain ⟨m, hm⟩ := List.mem_iff_getElem?.1 h1
          have := task_inj h hm hk e.symm
          subst this
          rw [hk] at hm
          cases hm
          cases h2
      · exfalso
        have hph' : home v g i <+: p := (List.prefix_or_prefix_of_prefix hpe (home_entry v g hip.1)).resolve_left hph
        exact hne (home_apart hg hip ⟨b0, nd', bn⟩ (hph'.trans hpw) (by rw [er]; exact List.prefix_append _ _)).symm
  have hagree : ∀ p, p <+: entryFor v g i j → x.tree p = Y p := by
    intro p hpe
    cases hx : x.tree p with
    | some e => rw [h.within _ _ hx]
    | none =>
      cases hY : Y p with
      | none => rfl
      | some e =>
        exfalso
        by_cases hp0 : p = []
        · rw [hp0, h.above _ _ hb.root] at hx; cases hx
        · rcases h.rest p (by rw [hY]; simp) with h1 | ⟨t, h1, w, h2, h3⟩
          · exact h1 hx
          · exact hclear p hpe t h1 w h2 h3 hp0 hx
  have hT0Y : Sub T0 Y := fun p e hp => h.within _ _ (h.above _ _ hp)
  have hex : existsAt v x.tree (entryFor v g i j) = existsAt v Y (entryFor v g i j) := by
    cases hT : T0 (entryFor v g i j) with
    | some e0 =>
      have key : ∀ Z, Sub T0 Z → existsAt v Z (entryFor v g i j) = true := by
        intro Z hZ
        unfold existsAt
        rw [hZ _ _ hT]
        cases e0 with
        | dir => rfl
        | file c => rfl
        | link text =>
          obtain ⟨q, hq1, hq2⟩ := hb.links i j text hs hj hT
          dsimp only
          rw [hq1]
          dsimp only
          cases hTq : T0 q with
          | none => exact absurd hTq hq2
          | some e => rw [hZ q e hTq]; rfl
      rw [key _ h.above, key _ hT0Y]
    | none =>
      have hY : Y (entryFor v g i j) = none := by
        cases ht : Y (entryFor v g i j) with
        | none => rfl
        | some e =>
          exfalso
          rcases (h.at_.tree _ e).1 ht with h1 | ⟨_, h1⟩
          · rw [hT] at h1; cases h1
          · exact hnl (new_entry hb h.at_.linked hs hj h1)
      unfold existsAt
      rw [hagree _ List.prefix_rfl, hY]
  obtain ⟨X', hX, m1, m2⟩ := linkDep_mirror hagree hex hy
  have hYY : Sub Y Y' := at_sub (fun _ h => h) (fun _ _ h => .inl h) h.at_ hA
  have hXX : Sub x.tree X' := by
    intro p e hpe
    by_cases hq : p <+: entryFor v g i j
    · rw [m1 p hq]; exact hYY _ _ (h.within _ _ hpe)
    · rw [(m2 p hq).1]; exact hpe
  have hfm := filter_set_same (b := ⟨i, [], false, rest⟩) hk rfl rfl
  have hwt : ∀ a l, (a < x.next ∧ l ∈ depsOf g a ∧ ¬ Waits x a l) ∨ (a = i ∧ l = j) ↔
      (a < x.next ∧ l ∈ depsOf g a ∧ ¬ Waits { x with tree := X', cache := c', tasks := x.tasks.set k ⟨i, [], false, rest⟩ } a l) := by
    intro a l
    constructor
    · rintro (⟨h1, h2, h3⟩ | ⟨rfl, rfl⟩)
      · refine ⟨h1, h2, ?_⟩
        rintro ⟨t, ht, h4, h5⟩
        rcases mem_set_cases ht with rfl | ⟨m, hm, _⟩
        · exact h3 ⟨_, hin, h4, List.mem_cons_of_mem _ h5⟩
        · exact h3 ⟨t, List.mem_of_getElem? hm, h4, h5⟩
      · refine ⟨hi, hj, ?_⟩
        rintro ⟨t, ht, h4, h5⟩
        rcases mem_set_cases ht with rfl | ⟨m, hm, hmk⟩
        · exact hjr h5
        · exact hmk (task_inj h hm hk h4)
    · rintro ⟨h1, h2, h3⟩
      by_cases he : a = i ∧ l = j
      · exact .inr he
      · left
        refine ⟨h1, h2, ?_⟩
        rintro ⟨t, ht, h4, h5⟩
        obtain ⟨m, hm⟩ := List.mem_iff_getElem?.1 ht
        by_cases hmk : m = k
        · subst hmk
          rw [hk] at hm
          cases hm
          dsimp only at h4 h5
          rcases List.mem_cons.1 h5 with h5 | h5
          · exact he ⟨h4.symm, h5⟩
          · exact h3 ⟨_, List.mem_set (List.getElem?_eq_some_iff.1 hk).1 _, h4, h5⟩
        · exact h3 ⟨t, List.mem_of_getElem? (i := m) (by rw [List.getElem?_set_ne (by omega)]; exact hm), h4, h5⟩
  refine ⟨_, Y', hX, ⟨at_congr (fun _ => Iff.rfl) hwt hA, h.le, fun p e hp => hXX _ _ (h.above _ _ hp), ?_, ?_, ?_,
    by rw [show (x.tasks.set k ⟨i, [], false, rest⟩).map (·.pkg) = x.tasks.map (·.pkg) from map_set_same hk rfl]; exact h.names, ?_, ?_,
    by dsimp only; rw [hfm]; exact h.rebuild, by dsimp only; rw [hfm]; exact h.bins, ?_⟩, hXX⟩
  · intro p e hpe
    by_cases hq : p <+: entryFor v g i j
    · rw [← m1 p hq]; exact hpe
    · rw [(m2 p hq).2]
      refine h.within _ _ ?_
      rw [← (m2 p hq).1]
      exact hpe
  · intro p q hpq hq
    dsimp only at hq ⊢
    by_cases hqe : q <+: entryFor v g i j
    · rw [m1 q hqe] at hq
      rw [m1 p (hpq.trans hqe)]
      exact at_closed hb hA p q hpq hq
    · rw [(m2 q hqe).1] at hq
      obtain ⟨e, he⟩ := Option.ne_none_iff_exists'.1 (h.closed p q hpq hq)
      rw [hXX _ _ he]
      simp
  · intro p hpe
    dsimp only
    by_cases hq : p <+: entryFor v g i j
    · left; rw [m1 p hq]; exact hpe
    · rw [(m2 p hq).1]
      rw [(m2 p hq).2] at hpe
      rcases h.rest p hpe with h1 | h1
      · exact .inl h1
      · exact .inr ((exists_set (b := ⟨i, [], false, rest⟩) (p := fun t => ∃ w ∈ t.writes, p <+: w.1) hk Iff.rfl).2 h1)
  · intro t ht
    rcases mem_set_cases ht with rfl | ⟨m, hm, _⟩
    · exact ⟨hi, ⟨done ++ [j], by rw [hdeps]; simp⟩, fun e => absurd rfl e, fun e => (by cases e)⟩
    · exact h.task t (List.mem_of_getElem? hm)
  · intro t ht w hwt' hd
    dsimp only
    rcases mem_set_cases ht with rfl | ⟨m, hm, _⟩
    · cases hwt'
    · have htm := List.mem_of_getElem? hm
      have hq : ¬ w.1 <+: entryFor v g i j := by
        intro hq
        obtain ⟨_, _, a2, a3⟩ := h.task t htm
        obtain ⟨b0, bT, nd', done', bn, bp⟩ := a3 (a2 (by intro e; rw [e] at hwt'; cases hwt'))
        have hup : w ∈ placed v g t.pkg (ws nd'.pkg) := by rw [bp]; simp [hwt']
        obtain ⟨r, hr, er⟩ := placed_mem hup
        exact hd (content_entry hb hs hjp b0 bn ((hw _ _ b0 bn).part _ hr).1 hq er).2.1
      rw [(m2 _ hq).1]
      exact h.fresh t htm w hwt' hd
  · dsimp only
    have := congrArg List.length hfm
    simp only [List.length_map] at this
    rw [this]
    exact h.cnt

/-- a package is done -/
theorem idone {x : IRun} {Y : Tree} (h : IInv pk ws v g T0 x Y) {k i : Nat} (hk : x.tasks[k]? = some ⟨i, [], false, []⟩) :
    IInv pk ws v g T0 { x with tasks := x.tasks.eraseIdx k } Y := by
  have hkl := (List.getElem?_eq_some_iff.1 hk).1
  have hperm : (⟨i, [], false, []⟩ :: x.tasks.eraseIdx k).Perm x.tasks := by
    have := cons_eraseIdx_perm hkl
    rwa [(List.getElem?_eq_some_iff.1 hk).2] at this
  have hmem : ∀ t, t ∈ x.tasks.eraseIdx k → t ∈ x.tasks := fun t ht => List.mem_of_mem_eraseIdx ht
  have hex : ∀ p : ITask → Prop, ¬ p ⟨i, [], false, []⟩ → ((∃ t ∈ x.tasks.eraseIdx k, p t) ↔ ∃ t ∈ x.tasks, p t) := by
    intro p hp
    constructor
    · rintro ⟨t, ht, h1⟩; exact ⟨t, hmem t ht, h1⟩
    · rintro ⟨t, ht, h1⟩
      rcases List.mem_cons.1 (hperm.mem_iff.2 ht) with rfl | h2
      · exact absurd h1 hp
      · exact ⟨t, h2, h1⟩
  have hnd : ((⟨i, [], false, []⟩ :: x.tasks.eraseIdx k).map (·.pkg)).Nodup := ((hperm.map _).nodup_iff).2 h.names
  have hf := filter_erase_read hk rfl
  refine ⟨at_congr (fun _ => Iff.rfl) (fun a j => ?_) h.at_, h.le, h.above, h.within, h.closed, ?_, (List.nodup_cons.1 hnd).2,
    fun t ht => h.task t (hmem t ht), fun t ht => h.fresh t (hmem t ht), by dsimp only; rw [hf]; exact h.rebuild, by dsimp only; rw [hf]; exact h.bins,
    by dsimp only; rw [hf]; exact h.cnt⟩
  · unfold Waits
    dsimp only
    rw [hex (fun t => t.pkg = a ∧ j ∈ t.links) (fun hx => (by cases hx.2))]
  · intro p hp
    rcases h.rest p hp with h1 | h1
    · exact .inl h1
    · exact .inr ((hex (fun t => ∃ w ∈ t.writes, p <+: w.1) (fun ⟨w, hw, _⟩ => (by cases hw))).2 h1)

/-- one step -/
theorem iinv_step (hb : Base pk v g T0) (hw : ∀ i nd, i ≠ 0 → g.nodes[i]? = some nd → WrittenAs (pk.content nd.pkg) (ws nd.pkg))
    {x : IRun} {Y : Tree} (h : IInv pk ws v g T0 x Y) {ev : XEvent} {o : Option IRun} (hs : istep pk ws v cap g x ev = some o) :
    ∃ x' Y', o = some x' ∧ IInv pk ws v g T0 x' Y' := by
  cases ev with
  | start =>
    simp only [istep] at hs
    split at hs
    · split at hs
      · cases hs
      · rename_i nd hn
        cases hs
        obtain ⟨Y', h'⟩ := istart hb hw h hn
        exact ⟨_, Y', rfl, h'⟩
    · cases hs
  | work k =>
    simp only [istep] at hs
    split at hs
    · cases hs
    · rename_i hk
      cases hs
      obtain ⟨t, e, h'⟩ := iwrite hb hw h hk
      exact ⟨_, Y, by rw [e]; rfl, h'⟩
    · rename_i hk
      split at hs
      · cases hs
      · rename_i nd hn
        cases hs
        exact ⟨_, Y, rfl, iread h hk hn⟩
    · rename_i hk
      cases hs
      obtain ⟨y, Y', e, h', _⟩ := ilink hb h hw hk
      exact ⟨_, Y', by rw [e]; rfl, h'⟩
    · rename_i hk
      cases hs
      exact ⟨_, Y, rfl, idone h hk⟩

theorem ireach_inv (hb : Base pk v g T0) (hw : ∀ i nd, i ≠ 0 → g.nodes[i]? = some nd → WrittenAs (pk.content nd.pkg) (ws nd.pkg)) {x : IRun}
    (h : IReach pk ws v cap g T0 x) : ∃ Y, IInv pk ws v g T0 x Y := by
  induction h with
  | init => exact ⟨_, iinv_init hb⟩
  | step ev _ hs ih =>
    obtain ⟨Y, hY⟩ := ih
    obtain ⟨x', Y', e, h'⟩ := iinv_step hb hw hY hs
    cases e
    exact ⟨Y', h'⟩

/-- when everything is done, the tree is the one made by extracting one after the other -/
theorem iinv_done (hb : Base pk v g T0) {x : IRun} {Y : Tree} (h : IInv pk ws v g T0 x Y) (hd : x.done g = true) :
    At pk v g T0 (fun i => IsPkg g i) (fun i j => Src g i ∧ j ∈ depsOf g i) x.tree x.cache ∧
    x.rebuild.Perm ((List.range g.nodes.length).filter (isNew v g pk.scripts T0)) ∧
    x.bins.Perm ((List.range g.nodes.length).filter (isNew v g (fun q => !(pk.bins q).isEmpty) T0)) ∧
    x.count = ((List.range g.nodes.length).filter (isNew v g (fun _ => true) T0)).length := by
  simp only [IRun.done, Bool.and_eq_true, decide_eq_true_eq, List.isEmpty_iff] at hd
  obtain ⟨hd1, hd2⟩ := hd
  have hnx : x.next = g.nodes.length := Nat.le_antisymm h.le hd1
  have h1 := h.rebuild
  have h2 := h.bins
  have h3 := h.cnt
  rw [hd2, hnx] at h1 h2 h3
  have hXY : x.tree = Y := by
    funext p
    cases hx : x.tree p with
    | some e => rw [h.within _ _ hx]
    | none =>
      cases hY : Y p with
      | none => rfl
      | some e =>
        rcases h.rest p (by rw [hY]; simp) with h4 | ⟨t, ht, _⟩
        · exact absurd hx h4
        · rw [hd2] at ht; cases ht
  refine ⟨?_, by simpa using h1, by simpa using h2, by simpa using h3⟩
  rw [hXY]
  refine at_congr (fun i => ?_) (fun i j => ?_) h.at_
  · rw [hnx]
    constructor
    · rintro ⟨h4, h5⟩; exact ⟨h4, _, List.getElem?_eq_getElem h5⟩
    · rintro ⟨h4, nd, h5⟩; exact ⟨h4, (List.getElem?_eq_some_iff.1 h5).1⟩
  · rw [hnx, src_lt hb.inst]
    constructor
    · rintro ⟨h4, h5, _⟩; exact ⟨h4, h5⟩
    · rintro ⟨h4, h5⟩
      refine ⟨h4, h5, ?_⟩
      rintro ⟨t, ht, _⟩
      rw [hd2] at ht; cases ht

/-- something can always happen, until everything is done -/
theorem iprogress {x : IRun} {Y : Tree} (h : IInv pk ws v g T0 x Y) (hd : x.done g = false) : ∃ ev o, istep pk ws v cap g x ev = some o := by
  by_cases ht : x.tasks = []
  · have hlt : x.next < g.nodes.length := by
      simp only [IRun.done, ht, List.isEmpty_nil, Bool.and_true, decide_eq_false_iff_not] at hd
      omega
    refine ⟨.start, ?_⟩
    simp only [istep, ht, List.length_nil, List.getElem?_eq_getElem hlt]
    rw [if_pos (by omega)]
    exact ⟨_, rfl⟩
  · obtain ⟨t, l, hl⟩ := List.exists_cons_of_ne_nil ht
    refine ⟨.work 0, ?_⟩
    have hk : x.tasks[0]? = some t := by rw [hl]; rfl
    obtain ⟨_, _, _, hr⟩ := h.task t (by rw [hl]; simp)
    obtain ⟨i, w, b, ls⟩ := t
    cases w with
    | cons w rest => simp only [istep, hk]; exact ⟨_, rfl⟩
    | nil =>
      cases b with
      | true =>
        obtain ⟨_, _, nd, _, hn, _⟩ := hr rfl
        dsimp only at hn
        simp only [istep, hk, hn]
        exact ⟨_, rfl⟩
      | false =>
        cases ls with
        | nil => simp only [istep, hk]; exact ⟨_, rfl⟩
        | cons j rest => simp only [istep, hk]; exact ⟨_, rfl⟩

theorem at_unique {A : Nat → Prop} {B : Nat → Nat → Prop} {t t' : Tree} {c c' : List Loc} (h : At pk v g T0 A B t c) (h' : At pk v g T0 A B t' c') : t = t' := by
  funext p
  cases hx : t p with
  | some e => rw [(h'.tree p e).2 ((h.tree p e).1 hx)]
  | none =>
    cases hy : t' p with
    | none => rfl
    | some e => rw [(h.tree p e).2 ((h'.tree p e).1 hy)] at hx; cases hx

/-- what is under way and what is still to come -/
theorem concurrent_core (hb : Base pk v g T0) (hw : ∀ i nd, i ≠ 0 → g.nodes[i]? = some nd → WrittenAs (pk.content nd.pkg) (ws nd.pkg)) {x : IRun}
    (h : IReach pk ws v cap g T0 x) {order : List Nat} (ho : Order g order) {z : Ext} (hz : extractAll pk v g order T0 = some z) :
    (∀ ev, istep pk ws v cap g x ev ≠ some none) ∧ (x.done g = false → ∃ ev y, istep pk ws v cap g x ev = some (some y)) ∧
    (x.done g = true → x.tree = z.tree ∧ x.rebuild.Perm z.rebuild ∧ x.bins.Perm z.bins) ∧
    ∀ p, x.tree p = T0 p ∨ (T0 p = none ∧ x.tree p = z.tree p) := by
  obtain ⟨Y, hY⟩ := ireach_inv hb hw h
  obtain ⟨z', hz', hA, hR, hB⟩ := extract_all hb ho
  rw [hz] at hz'
  cases hz'
  refine ⟨?_, ?_, ?_, ?_⟩
  · intro ev hs
    obtain ⟨_, _, e, _⟩ := iinv_step hb hw hY hs
    cases e
  · intro hd
    obtain ⟨ev, o, ho⟩ := iprogress (cap := cap) hY hd
    obtain ⟨x', _, e, _⟩ := iinv_step hb hw hY ho
    exact ⟨ev, x', by rw [ho, e]⟩
  · intro hd
    obtain ⟨h1, h2, h3, _⟩ := iinv_done hb hY hd
    refine ⟨at_unique h1 hA, ?_, ?_⟩
    · rw [hR]; exact h2.trans (ho.symm.filter _)
    · rw [hB]; exact h3.trans (ho.symm.filter _)
  · intro p
    have hsub : Sub Y z.tree := by
      refine at_sub (fun i hi => ⟨hi.1, _, List.getElem?_eq_getElem (by have := hY.le; omega)⟩) (fun i j hij => ⟨(src_lt hb.inst).1 (by have := hY.le; omega), hij.2.1⟩) hY.at_ hA
    cases hT : T0 p with
    | some e => rw [hY.above _ _ hT]; exact .inl rfl
    | none =>
      cases hx : x.tree p with
      | none => exact .inl rfl
      | some e => exact .inr ⟨rfl, (hsub _ _ (hY.within _ _ hx)).symm⟩

/-! ### commands that are there already -/

theorem writeAt_rel {t t' : Tree} (h : Rel t t') (hG : Good v t') {p : Loc} {e : Entry} (hp : ¬ InBin p) (he : ∀ text, e ≠ .link text) :
    ORel (fun a b => Rel a b ∧ Good v b) (writeAt t p e) (writeAt t' p e) := by
  unfold writeAt
  have hb : Hoisted.blocked t p = Hoisted.blocked t' p := by
    unfold Hoisted.blocked
    rw [Bool.eq_iff_iff, List.any_eq_true, List.any_eq_true]
    constructor <;> rintro ⟨k, hk, hx⟩ <;> refine ⟨k, hk, ?_⟩
    · rw [← h _ (inBin_prefix hp (List.take_prefix k p))]; exact hx
    · rw [h _ (inBin_prefix hp (List.take_prefix k p))]; exact hx
  rw [hb, h p hp]
  split
  · exact .inl ⟨rfl, rfl⟩
  · split
    · exact .inl ⟨rfl, rfl⟩
    · refine .inr ⟨_, _, rfl, rfl, ?_, ?_⟩
      · intro q hq
        dsimp only
        unfold Hoisted.dirsAbove
        rw [h q hq]
      · refine good_mono (fun q text hq hl => ?_) hG
        split at hl
        · cases hl; exact absurd rfl (he text)
        · unfold Hoisted.dirsAbove at hl
          split at hl
          · cases hl
          · exact hl

/-- the same progress in trees that differ only in commands -/
structure RelI (v : Env) (g : Graph Str P S) (x y : IRun) : Prop where
  disk : RelC v (x.tree, x.cache) (y.tree, y.cache)
  next : x.next = y.next
  tasks : x.tasks = y.tasks
  rebuild : x.rebuild = y.rebuild
  bins : x.bins = y.bins
  count : x.count = y.count
  plain : ∀ t ∈ y.tasks, Src g t.pkg ∧ (∀ j ∈ t.links, IsPkg g j) ∧ ∀ w ∈ t.writes, ¬ InBin w.1 ∧ ∀ text, w.2 ≠ .link text

theorem istep_rel (hg : Installable pk v g) (hw : ∀ i nd, i ≠ 0 → g.nodes[i]? = some nd → WrittenAs (pk.content nd.pkg) (ws nd.pkg))
    {x y : IRun} (h : RelI v g x y) (ev : XEvent) : ORel (ORel (RelI v g)) (istep pk ws v cap g x ev) (istep pk ws v cap g y ev) := by
  obtain ⟨xt, xc, xn, xts, xr, xb, xk⟩ := x
  obtain ⟨yt, yc, yn, yts, yr, yb, yk⟩ := y
  obtain ⟨hd, e1, e2, e3, e4, e5, hp⟩ := h
  dsimp only at hd e1 e2 e3 e4 e5 hp
  subst e1 e2 e3 e4 e5
  have hset : ∀ (k : Nat) (a b : ITask), xts[k]? = some a → b.pkg = a.pkg → (∀ j ∈ b.links, j ∈ a.links) → (∀ w ∈ b.writes, w ∈ a.writes) →
      ∀ t ∈ xts.set k b, Src g t.pkg ∧ (∀ j ∈ t.links, IsPkg g j) ∧ ∀ w ∈ t.writes, ¬ InBin w.1 ∧ ∀ text, w.2 ≠ .link text := by
    intro k a b hk h1 h2 h3 t ht
    rcases mem_set_cases ht with rfl | ⟨m, hm, _⟩
    · obtain ⟨p1, p2, p3⟩ := hp a (List.mem_of_getElem? hk)
      exact ⟨by rw [h1]; exact p1, fun j hj => p2 j (h2 j hj), fun w hw => p3 w (h3 w hw)⟩
    · exact hp t (List.mem_of_getElem? hm)
  cases ev with
  | start =>
    simp only [istep]
    split
    · cases hn : g.nodes[xn]? with
      | none => exact .inl ⟨rfl, rfl⟩
      | some nd =>
        dsimp only
        have hb : begin ws v g ⟨xt, xc, xn, xts, xr, xb, xk⟩ nd = begin ws v g ⟨yt, yc, xn, xts, xr, xb, xk⟩ nd := by
          unfold begin
          by_cases h0 : xn = 0
          · simp [h0]
          · have e : xt (home v g xn) = yt (home v g xn) := hd.1 _ (notBin_home hg ⟨h0, nd, hn⟩)
            by_cases hy : yt (home v g xn) = none
            · rw [if_neg (by rintro (hx | hx); exact h0 hx; exact hx (e.trans hy)), if_neg (by rintro (hx | hx); exact h0 hx; exact hx hy)]
            · rw [if_pos (.inr (by show xt (home v g xn) ≠ none; rw [e]; exact hy)), if_pos (.inr hy)]
        rw [hb]
        refine .inr ⟨_, _, rfl, rfl, .inr ⟨_, _, rfl, rfl, hd, rfl, rfl, rfl, rfl, rfl, ?_⟩⟩
        intro t ht
        rcases List.mem_append.1 ht with ht | ht
        · exact hp t ht
        · rw [List.mem_singleton.1 ht]
          unfold begin
          split
          · exact ⟨(src_lt hg).1 (List.getElem?_eq_some_iff.1 hn).1, fun j hj => dep_pkg hg hj, fun w hw => (by cases hw)⟩
          · rename_i hc
            rw [not_or] at hc
            refine ⟨(src_lt hg).1 (List.getElem?_eq_some_iff.1 hn).1, fun j hj => dep_pkg hg hj, fun w hwm => ?_⟩
            obtain ⟨r, hr, er⟩ := placed_mem (v := v) (g := g) (i := xn) hwm
            have hpart := ((hw xn nd hc.1 hn).part _ hr).1
            dsimp only at hpart
            refine ⟨?_, fun text ht => ?_⟩
            · rw [er, inBin_home hg ⟨hc.1, nd, hn⟩]
              rintro ⟨q, rfl⟩
              have := hg.bundled xn nd (binName :: q) hc.1 hn
              simp only [List.cons_append, List.nil_append] at hpart
              rw [this] at hpart; cases hpart
            · rw [ht] at hpart
              exact hg.noLinks xn nd r text hc.1 hn hpart
    · exact .inl ⟨rfl, rfl⟩
  | work k =>
    simp only [istep]
    cases hk : xts[k]? with
    | none => exact .inl ⟨rfl, rfl⟩
    | some t =>
      obtain ⟨i, w, b, ls⟩ := t
      obtain ⟨p1, p2, p3⟩ := hp _ (List.mem_of_getElem? hk)
      dsimp only at p1 p2 p3
      cases w with
      | cons w rest =>
        dsimp only
        refine .inr ⟨_, _, rfl, rfl, ?_⟩
        obtain ⟨q1, q2⟩ := p3 w (by simp)
        rcases writeAt_rel (v := v) hd.1 hd.2.1 q1 q2 with ⟨f1, f2⟩ | ⟨a, c, f1, f2, k1, k2⟩
        · dsimp only at f1 f2
          rw [f1, f2]; exact .inl ⟨rfl, rfl⟩
        · dsimp only at f1 f2
          rw [f1, f2]
          exact .inr ⟨_, _, rfl, rfl, ⟨k1, k2, hd.2.2⟩, rfl, rfl, rfl, rfl, rfl, hset k _ _ hk rfl (fun _ h => h) (fun _ h => List.mem_cons_of_mem _ h)⟩
      | nil =>
        cases b with
        | true =>
          dsimp only
          cases hn : g.nodes[i]? with
          | none => exact .inl ⟨rfl, rfl⟩
          | some nd =>
            dsimp only
            exact .inr ⟨_, _, rfl, rfl, .inr ⟨_, _, rfl, rfl, hd, rfl, rfl, rfl, rfl, rfl, hset k _ _ hk rfl (fun _ h => h) (fun _ h => h)⟩⟩
        | false =>
          cases ls with
          | nil =>
            dsimp only
            exact .inr ⟨_, _, rfl, rfl, .inr ⟨_, _, rfl, rfl, hd, rfl, rfl, rfl, rfl, rfl, fun t ht => hp t (List.mem_of_mem_eraseIdx ht)⟩⟩
          | cons j rest =>
            dsimp only
            refine .inr ⟨_, _, rfl, rfl, ?_⟩
            rcases linkDep_rel hg p1 (p2 j (by simp)) hd with ⟨f1, f2⟩ | ⟨a, c, f1, f2, k1⟩
            · rw [f1, f2]; exact .inl ⟨rfl, rfl⟩
            · rw [f1, f2]
              exact .inr ⟨_, _, rfl, rfl, k1, rfl, rfl, rfl, rfl, rfl, hset k _ _ hk rfl (fun _ h => List.mem_cons_of_mem _ h) (fun _ h => h)⟩

theorem ireach_rel (hg : Installable pk v g) (hw : ∀ i nd, i ≠ 0 → g.nodes[i]? = some nd → WrittenAs (pk.content nd.pkg) (ws nd.pkg))
    {t t' : Tree} (h : Rel t t') (hG : Good v t') {x : IRun} (hx : IReach pk ws v cap g t x) : ∃ y, IReach pk ws v cap g t' y ∧ RelI v g x y := by
  induction hx with
  | init =>
    refine ⟨_, .init, ⟨?_, ?_, rfl, ?_⟩, rfl, rfl, rfl, rfl, rfl, fun t ht => (by cases ht)⟩
    · intro q hq
      show put t [] .dir q = put t' [] .dir q
      unfold put
      rw [h q hq]
    · refine good_mono (fun q text _ hl => ?_) hG
      have hl : put t' [] .dir q = some (.link text) := hl
      unfold put at hl
      split at hl
      · cases hl
      · exact hl
    · intro c hc
      rw [List.mem_singleton.1 hc]
      exact notBin_nil
  | step ev _ hs ih =>
    obtain ⟨y, hy, hr⟩ := ih
    rcases istep_rel (cap := cap) hg hw hr ev with ⟨f1, _⟩ | ⟨o, o', f1, f2, hoo⟩
    · rw [hs] at f1; cases f1
    · rw [hs] at f1
      cases f1
      rcases hoo with ⟨f3, _⟩ | ⟨a, b, f3, f4, hab⟩
      · cases f3
      · cases f3
        exact ⟨b, .step ev hy (by rw [f2, f4]), hab⟩

end

theorem ireach_congr {pk : Pkgs P} {ws : P → List (Loc × Entry)} {cap : Nat} {v : Env} {g : Graph Str P S} {t t' : Tree} (h : iinit t = iinit t') {x : IRun}
    (hx : IReach pk ws v cap g t x) : IReach pk ws v cap g t' x := by
  induction hx with
  | init => rw [h]; exact .init
  | step ev _ hs ih => exact .step ev ih hs

section
variable (pk : Pkgs P) (ws : P → List (Loc × Entry)) (v : Env) (cap : Nat) (g : Graph Str P S)

/-- C46: a first install, several packages being extracted and linked at a time, in any order, file by file and link by link: nothing
fails, it does not get stuck, and when it is done there is exactly what should be there, and the packages noted for their scripts and
commands are the same as when they are done one after the other. -/
theorem C46_concurrent (hg : Installable pk v g) (hw : ∀ i nd, i ≠ 0 → g.nodes[i]? = some nd → WrittenAs (pk.content nd.pkg) (ws nd.pkg))
    (d : Disk V I) (hd : Fresh d) (order : List Nat) (ho : Order g order) (x : IRun) (h : IReach pk ws v cap g (prune v g d) x) :
    (∀ ev, istep pk ws v cap g x ev ≠ some none) ∧ (x.done g = false → ∃ ev y, istep pk ws v cap g x ev = some (some y)) ∧
    (x.done g = true → Exact pk v g x.tree ∧ ∃ y, install pk v g order d = some y ∧ x.tree = y.tree ∧ x.rebuild.Perm y.rebuild ∧ x.bins.Perm y.bins) := by
  obtain ⟨y, hy, hE⟩ := C46_fresh pk v g hg d hd order ho
  have hx : IReach pk ws v cap g Hoisted.wiped x ∧ extractAll pk v g order Hoisted.wiped = some y := by
    unfold install at hy
    obtain ⟨hm, hn | hr⟩ := hd
    · have hp : prune v g d = d.tree := by unfold prune; rw [if_pos (hn [])]
      rw [hp] at h hy
      have e1 : put d.tree [] .dir = put Hoisted.wiped [] .dir := by
        funext p; unfold put Hoisted.wiped; split <;> [rfl; simp [hn p, *]]
      refine ⟨ireach_congr (by unfold iinit; rw [e1]) h, ?_⟩
      unfold extractAll at hy ⊢
      rw [if_neg (by rw [hn]; simp)] at hy
      rw [if_neg (by simp [Hoisted.wiped]), ← e1]
      exact hy
    · have hp : prune v g d = Hoisted.wiped := by unfold prune; rw [if_neg (by rw [hr]; simp), if_pos (by rw [hm]; rfl)]
      rw [hp] at h hy
      exact ⟨h, hy⟩
  obtain ⟨c1, c2, c3, _⟩ := concurrent_core (wiped_base hg) hw hx.1 ho hx.2
  refine ⟨c1, c2, fun hdn => ?_⟩
  obtain ⟨h1, h2, h3⟩ := c3 hdn
  exact ⟨by rw [h1]; exact hE, y, hy, h1, h2, h3⟩

/-- C46: the same for a change the linker gets right, whatever tree was installed, with whatever commands (commands apart). -/
theorem C46_concurrent_partial (g0 : Graph Str P S) (h0 : Installable pk v g0) (hg : Installable pk v g) (hc : Compatible pk v g0 g)
    (hw : ∀ i nd, i ≠ 0 → g.nodes[i]? = some nd → WrittenAs (pk.content nd.pkg) (ws nd.pkg))
    (d : Disk V I) (hd : Installed pk v g0 d.tree) (order : List Nat) (ho : Order g order) (x : IRun) (h : IReach pk ws v cap g (prune v g d) x) :
    (∀ ev, istep pk ws v cap g x ev ≠ some none) ∧ (x.done g = false → ∃ ev y, istep pk ws v cap g x ev = some (some y)) ∧
    (x.done g = true → Installed pk v g x.tree ∧ ∃ y, install pk v g order d = some y ∧ x.rebuild.Perm y.rebuild ∧ x.bins.Perm y.bins) := by
  have hx := exact_strip h0 hd
  have hG := good_exact h0 (installed_of_exact hx)
  have hrel : Rel (prune v g d) (prune v g ⟨strip d.tree, d.metaFile⟩) := prune_rel rfl (rel_strip _)
  obtain ⟨x', hx', hr⟩ := ireach_rel hg hw hrel (good_prune (d := ⟨strip d.tree, d.metaFile⟩) hG) h
  obtain ⟨y, hy, hE⟩ := update_exact pk v g0 g h0 hg hc ⟨strip d.tree, d.metaFile⟩ hx order ho
  have hb : Base pk v g (prune v g ⟨strip d.tree, d.metaFile⟩) := by
    have hroot : strip d.tree [] = some .dir := (hx _ _).2 (.inl ⟨rfl, rfl⟩)
    unfold prune
    rw [if_neg (by show ¬ strip d.tree [] = none; rw [hroot]; simp)]
    split
    · exact wiped_base hg
    · exact pruned_base h0 hg hc hx
  obtain ⟨c1, c2, c3, _⟩ := concurrent_core hb hw hx' ho hy
  refine ⟨fun ev hs => ?_, fun hdn => ?_, fun hdn => ?_⟩
  · rcases istep_rel (cap := cap) hg hw hr ev with ⟨f1, _⟩ | ⟨o, o', f1, f2, hoo⟩
    · rw [hs] at f1; cases f1
    · rw [hs] at f1
      cases f1
      rcases hoo with ⟨_, f3⟩ | ⟨a, b, f3, _⟩
      · exact c1 ev (by rw [f2, f3])
      · cases f3
  · have hdn' : x'.done g = false := by rw [← hdn]; unfold IRun.done; rw [hr.next, hr.tasks]
    obtain ⟨ev, z, hz⟩ := c2 hdn'
    rcases istep_rel (cap := cap) hg hw hr ev with ⟨_, f1⟩ | ⟨o, o', f1, f2, hoo⟩
    · rw [hz] at f1; cases f1
    · rw [hz] at f2
      cases f2
      rcases hoo with ⟨_, f3⟩ | ⟨a, b, f3, _⟩
      · cases f3
      · exact ⟨ev, a, by rw [f1, f3]⟩
  · have hdn' : x'.done g = true := by rw [← hdn]; unfold IRun.done; rw [hr.next, hr.tasks]
    obtain ⟨k1, k2, k3⟩ := c3 hdn'
    refine ⟨installed_rel hr.disk.1 (by rw [show (x'.tree, x'.cache).1 = y.tree from k1]; exact installed_of_exact hE), ?_⟩
    rcases install_rel (d := d) (d' := ⟨strip d.tree, d.metaFile⟩) hg ho rfl (rel_strip _) hG with ⟨_, f1⟩ | ⟨a, b, f1, f2, f3⟩
    · rw [hy] at f1; cases f1
    · rw [hy] at f2
      cases f2
      exact ⟨a, f1, by rw [hr.rebuild, f3.2.1]; exact k2, by rw [hr.bins, f3.2.2]; exact k3⟩

/-- C46: the number `extract` returns is that of the packages that were not there. -/
theorem C46_concurrent_count (hg : Installable pk v g) (hw : ∀ i nd, i ≠ 0 → g.nodes[i]? = some nd → WrittenAs (pk.content nd.pkg) (ws nd.pkg))
    (d : Disk V I) (hd : Fresh d) (x : IRun) (h : IReach pk ws v cap g (prune v g d) x) (hdn : x.done g = true) : x.count + 1 = g.nodes.length := by
  have hx : IReach pk ws v cap g Hoisted.wiped x := by
    obtain ⟨hm, hn | hr⟩ := hd
    · have hp : prune v g d = d.tree := by unfold prune; rw [if_pos (hn [])]
      rw [hp] at h
      have e1 : put d.tree [] .dir = put Hoisted.wiped [] .dir := by
        funext p; unfold put Hoisted.wiped; split <;> [rfl; simp [hn p, *]]
      exact ireach_congr (by unfold iinit; rw [e1]) h
    · have hp : prune v g d = Hoisted.wiped := by unfold prune; rw [if_neg (by rw [hr]; simp), if_pos (by rw [hm]; rfl)]
      rw [hp] at h
      exact h
  obtain ⟨Y, hY⟩ := ireach_inv (wiped_base hg) hw hx
  obtain ⟨_, _, _, hc⟩ := iinv_done (wiped_base hg) hY hdn
  rw [hc]
  have hr : 0 < g.nodes.length := by
    obtain ⟨nd, hn, _⟩ := hg.tree.root
    exact (List.getElem?_eq_some_iff.1 hn).1
  obtain ⟨n, hn⟩ := Nat.exists_eq_succ_of_ne_zero (by omega : g.nodes.length ≠ 0)
  have hf : (List.range g.nodes.length).filter (isNew v g (fun _ => true) Hoisted.wiped) = (List.range n).map (· + 1) := by
    rw [hn, Nat.succ_eq_add_one, List.range_succ_eq_map, List.filter_cons, if_neg (by simp [isNew]), List.filter_eq_self.2]
    intro a ha
    obtain ⟨b, hb, rfl⟩ := List.mem_map.1 ha
    rw [List.mem_range] at hb
    have hlt : b + 1 < g.nodes.length := by omega
    simp [isNew, Hoisted.wiped, home, List.getElem?_eq_getElem hlt]
  rw [hf, List.length_map, List.length_range, hn]

end

/-! ### interruptions (C34) -/

/-- C34, isolated layout: if the first install is interrupted anywhere while it extracts and links – the meta file is only written
afterwards – applying any tree then gives exactly what should be there. -/
theorem C34_isolated_fresh_partial (pk : Pkgs P) (ws : P → List (Loc × Entry)) (v : Env) (cap : Nat) (g g' : Graph Str P S) (hg : Installable pk v g)
    (hg' : Installable pk v g') (hw : ∀ i nd, i ≠ 0 → g.nodes[i]? = some nd → WrittenAs (pk.content nd.pkg) (ws nd.pkg))
    (d : Disk V I) (hd : Fresh d) (x : IRun) (h : IReach pk ws v cap g (prune v g d) x) (order : List Nat) (ho : Order g' order) :
    ∃ y, install pk v g' order (⟨x.tree, none⟩ : Disk V I) = some y ∧ Exact pk v g' y.tree := by
  have hx : IReach pk ws v cap g Hoisted.wiped x := by
    obtain ⟨hm, hn | hr⟩ := hd
    · have hp : prune v g d = d.tree := by unfold prune; rw [if_pos (hn [])]
      rw [hp] at h
      have e1 : put d.tree [] .dir = put Hoisted.wiped [] .dir := by
        funext p; unfold put Hoisted.wiped; split <;> [rfl; simp [hn p, *]]
      exact ireach_congr (by unfold iinit; rw [e1]) h
    · have hp : prune v g d = Hoisted.wiped := by unfold prune; rw [if_neg (by rw [hr]; simp), if_pos (by rw [hm]; rfl)]
      rw [hp] at h
      exact h
  obtain ⟨Y, hY⟩ := ireach_inv (wiped_base hg) hw hx
  exact C46_fresh pk v g' hg' ⟨x.tree, none⟩ ⟨rfl, .inr (hY.above _ _ (wiped_base hg).root)⟩ order ho

/-! ### it comes to an end -/

/-- the number of events at most still to come -/
def togo (ws : P → List (Loc × Entry)) (g : Graph Str P S) (x : IRun) : Nat :=
  (((List.range g.nodes.length).drop x.next).map fun i => (((g.nodes[i]?).map fun nd => (ws nd.pkg).length).getD 0) + (depsOf g i).length + 3).sum +
    (x.tasks.map fun t => t.writes.length + t.links.length + t.unread.toNat + 1).sum

theorem togo_step {pk : Pkgs P} {ws : P → List (Loc × Entry)} {cap : Nat} {v : Env} {g : Graph Str P S} {x y : IRun} {ev : XEvent}
    (h : istep pk ws v cap g x ev = some (some y)) : togo ws g y + 1 ≤ togo ws g x := by
  cases ev with
  | start =>
    simp only [istep] at h
    split at h
    · split at h
      · cases h
      · rename_i nd hn
        cases h
        have hl := (List.getElem?_eq_some_iff.1 hn).1
        have hdrop : (List.range g.nodes.length).drop x.next = x.next :: (List.range g.nodes.length).drop (x.next + 1) := by
          rw [List.drop_eq_getElem_cons (by simpa using hl)]
          simp
        simp only [togo, hdrop, List.map_cons, List.sum_cons, List.map_append, List.sum_append, List.map_nil, List.sum_nil, hn, Option.map_some, Option.getD_some]
        unfold begin
        split <;> simp <;> omega
    · cases h
  | work k =>
    simp only [istep] at h
    split at h
    · cases h
    · rename_i i w rest b ls hk
      simp only [Option.some.injEq] at h
      obtain ⟨t, _, e⟩ := Option.map_eq_some_iff.1 h
      subst e
      simp only [togo]
      have := Hoisted.sum_set (fun t : ITask => t.writes.length + t.links.length + t.unread.toNat + 1) (b := ⟨i, rest, b, ls⟩) hk
      simp only [List.length_cons] at this
      omega
    · rename_i i ls hk
      split at h
      · cases h
      · cases h
        simp only [togo]
        have := Hoisted.sum_set (fun t : ITask => t.writes.length + t.links.length + t.unread.toNat + 1) (b := ⟨i, [], false, ls⟩) hk
        simp only [Bool.toNat_true, Bool.toNat_false] at this
        omega
    · rename_i i j rest hk
      simp only [Option.some.injEq] at h
      obtain ⟨t, _, e⟩ := Option.map_eq_some_iff.1 h
      subst e
      simp only [togo]
      have := Hoisted.sum_set (fun t : ITask => t.writes.length + t.links.length + t.unread.toNat + 1) (b := ⟨i, [], false, rest⟩) hk
      simp only [List.length_cons] at this
      omega
    · rename_i i hk
      cases h
      simp only [togo]
      have := Hoisted.sum_eraseIdx (fun t : ITask => t.writes.length + t.links.length + t.unread.toNat + 1) hk
      simp only [List.length_nil] at this
      omega

/-- C46: extraction ends, in whatever order things happen: every run has at most as many events as there are entries to write and
dependencies to link, and three for each package. -/
theorem C46_concurrent_ends (pk : Pkgs P) (ws : P → List (Loc × Entry)) (v : Env) (cap : Nat) (g : Graph Str P S) (t : Tree) (evs : List XEvent) (y : IRun)
    (h : irun pk ws v cap g (iinit t) evs = some (some y)) :
    evs.length ≤ ((List.range g.nodes.length).map fun i => (((g.nodes[i]?).map fun nd => (ws nd.pkg).length).getD 0) + (depsOf g i).length + 3).sum := by
  have key : ∀ (evs : List XEvent) (x : IRun), irun pk ws v cap g x evs = some (some y) → evs.length + togo ws g y ≤ togo ws g x := by
    intro evs
    induction evs with
    | nil => intro x h; cases h; simp
    | cons ev evs ih =>
      intro x h
      simp only [irun] at h
      split at h
      · cases h
      · cases h
      · rename_i z hz
        have h1 := ih z h
        have h2 := togo_step hz
        simp only [List.length_cons]
        omega
  have := key evs _ h
  simp only [togo, iinit, List.drop_zero, List.map_nil, List.sum_nil, Nat.add_zero] at this
  omega

theorem reach_run {pk : Pkgs P} {ws : P → List (Loc × Entry)} {cap : Nat} {v : Env} {g : Graph Str P S} {t : Tree} :
    ∀ (evs : List XEvent) {x y : IRun}, IReach pk ws v cap g t x → irun pk ws v cap g x evs = some (some y) → IReach pk ws v cap g t y
  | [], _, _, hx, h => by cases h; exact hx
  | ev :: evs, x, y, hx, h => by
    simp only [irun] at h
    split at h
    · cases h
    · cases h
    · rename_i z hz
      exact reach_run evs (.step ev hx hz) h

namespace Ex
/-- the entries of a package, in the order of its tarball -/
def ws (ver : Nat) : List (Loc × Entry) := [([], .dir), ([pj], .file [UInt8.ofNat ver])]

theorem written (ver : Nat) : WrittenAs (pk.content ver) (ws ver) where
  part := by
    intro w hw
    simp only [ws, List.mem_cons, List.not_mem_nil, or_false] at hw
    rcases hw with rfl | rfl
    · refine ⟨by simp [pk], fun q h1 h2 => absurd (List.prefix_nil.1 h1) h2⟩
    · refine ⟨by simp [pk, pj], fun q h1 h2 => ?_⟩
      have : q = [] := by
        rcases q with _ | ⟨a, q⟩
        · rfl
        · exfalso
          apply h2
          obtain ⟨r, hr⟩ := h1
          simp only [List.cons_append, List.cons.injEq, List.append_eq_nil_iff] at hr
          rw [hr.1, hr.2.1]
      subst this
      simp [pk]
  once := by simp [ws]
  all := by
    intro r e h
    left
    simp only [pk] at h
    split at h
    · rename_i h1; cases h; simp [ws, h1]
    · split at h
      · rename_i h1; cases h; simp [ws, h1]
      · cases h

/-- the project's links are made before its dependencies are there; a waits for its link while @s/b is finished -/
def busy : List XEvent := [.start, .start, .start, .work 0, .work 2, .work 1, .work 0, .work 0,
  .work 1, .work 0, .work 1, .work 1, .work 0, .work 0, .work 0]

/-- C46_concurrent is about this run: it is over, the packages are noted in the other order, and the link leads to the file -/
example : ∃ y, IReach pk ws v 0 (tri 1) (prune v (tri 1) none_) y ∧ y.done (tri 1) = true ∧ y.rebuild = [2, 1] ∧ y.bins = [2, 1] ∧
    y.tree (entryFor v (tri 1) 1 2) = some (.link (diff (home v (tri 1) 2) (entryFor v (tri 1) 1 2).dropLast)) ∧
    y.tree (home v (tri 1) 2 ++ [pj]) = some (.file [1]) := by
  have h : (irun pk ws v 0 (tri 1) (iinit (prune v (tri 1) none_)) busy).bind (fun o => o.map fun y =>
      (y.done (tri 1), y.rebuild, y.bins, y.tree (entryFor v (tri 1) 1 2), y.tree (home v (tri 1) 2 ++ [pj]))) =
      some (true, [2, 1], [2, 1], some (.link (diff (home v (tri 1) 2) (entryFor v (tri 1) 1 2).dropLast)), some (.file [1])) := by decide +kernel
  obtain ⟨o, h1, h2⟩ := Option.bind_eq_some_iff.1 h
  obtain ⟨y, h3, h4⟩ := Option.map_eq_some_iff.1 h2
  subst h3
  simp only [Prod.mk.injEq] at h4
  exact ⟨y, reach_run busy .init h1, h4.1, h4.2.1, h4.2.2.1, h4.2.2.2.1, h4.2.2.2.2⟩

/-- with `concurrency = 2` the third package waits -/
example : irun pk ws v 2 (tri 1) (iinit (prune v (tri 1) none_)) [.start, .start, .start] = none := rfl

/-- C46_concurrent_partial is about the change from `tri` to `quad` (see `compatible`) -/
example (x : IRun) (h : IReach pk ws v 0 quad (prune v quad (after (tri 1))) x) (hd : x.done quad = true) : Installed pk v quad x.tree :=
  ((C46_concurrent_partial pk ws v 0 quad (tri 1) (inst_tri 1) inst_quad compatible (fun _ nd _ _ => written nd.pkg) (after (tri 1)) (after_ok (inst_tri 1))
    (List.range 4) (List.Perm.refl _) x h).2.2 hd).1

/-- an update is interrupted when the folder of the new package is there but its file is not -/
def halfway : List XEvent := [.start, .start, .start, .start, .work 3]

end Ex

/-- C34 is false of the isolated layout when there was a tree before: pruning leaves the old meta file, so a package that was being
unpacked when apply was interrupted is taken for complete, and applying the same tree again – as often as one likes – succeeds and leaves it as it is. -/
theorem C34_isolated_fails : ∃ x, Installed Ex.pk Ex.v (Ex.tri 1) (Ex.after (Ex.tri 1)).tree ∧ Compatible Ex.pk Ex.v (Ex.tri 1) Ex.quad ∧
    IReach Ex.pk Ex.ws Ex.v 0 Ex.quad (prune Ex.v Ex.quad (Ex.after (Ex.tri 1))) x ∧
    ∃ y z, install Ex.pk Ex.v Ex.quad (List.range 4) (⟨x.tree, (Ex.after (Ex.tri 1)).metaFile⟩ : Disk Nat Nat) = some y ∧
      install Ex.pk Ex.v Ex.quad (List.range 4) (⟨y.tree, some []⟩ : Disk Nat Nat) = some z ∧
      z.tree (home Ex.v Ex.quad 3) = some .dir ∧ z.tree (home Ex.v Ex.quad 3 ++ [Ex.pj]) = none ∧ 3 ∉ y.rebuild ∧
      ¬ Installed Ex.pk Ex.v Ex.quad z.tree := by
  have h : (irun Ex.pk Ex.ws Ex.v 0 Ex.quad (iinit (prune Ex.v Ex.quad (Ex.after (Ex.tri 1)))) Ex.halfway).bind (fun o => o.bind fun x =>
      (install Ex.pk Ex.v Ex.quad (List.range 4) (⟨x.tree, (Ex.after (Ex.tri 1)).metaFile⟩ : Disk Nat Nat)).bind fun y =>
        (install Ex.pk Ex.v Ex.quad (List.range 4) (⟨y.tree, some []⟩ : Disk Nat Nat)).map fun z =>
        (z.tree (home Ex.v Ex.quad 3), z.tree (home Ex.v Ex.quad 3 ++ [Ex.pj]), y.rebuild)) = some (some .dir, none, []) := by decide +kernel
  obtain ⟨o, h1, h2⟩ := Option.bind_eq_some_iff.1 h
  obtain ⟨x, h3, h4⟩ := Option.bind_eq_some_iff.1 h2
  subst h3
  obtain ⟨y, h5, h6⟩ := Option.bind_eq_some_iff.1 h4
  obtain ⟨z, h7, h8⟩ := Option.map_eq_some_iff.1 h6
  simp only [Prod.mk.injEq] at h8
  refine ⟨x, Ex.after_ok (Ex.inst_tri 1), Ex.compatible, reach_run _ .init h1, y, z, h5, h7, h8.1, h8.2.1, by rw [h8.2.2]; simp, ?_⟩
  intro hI
  have hnb : ¬ InBin (home Ex.v Ex.quad 3 ++ [Ex.pj]) := by
    rw [inBin_home Ex.inst_quad ⟨by decide, _, rfl⟩]
    decide
  have := (hI _ hnb (.file [7])).2 (.inr (.inl ⟨3, _, by decide, rfl, .inl ⟨[Ex.pj], rfl, by decide⟩⟩))
  rw [h8.2.1] at this
  cases this

end Iso
end Oro
