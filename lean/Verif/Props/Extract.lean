import Verif.Spec.Extract
import Verif.Props.Hoisted
/-
C33, C34: several packages are extracted at a time, file by file, in any order: the result is the same, nothing fails, and
wherever it is interrupted the state is one of those C34 is about.
-/

set_option linter.unusedSectionVars false

namespace Oro
namespace Hoisted
variable {P S V I : Type} [DecidableEq V] [DecidableEq I] [DecidableEq S]

/-- everything in the first tree is in the second -/
def Sub (t t' : Tree) : Prop := ∀ p e, t p = some e → t' p = some e

theorem cons_eraseIdx_perm {α : Type} : ∀ {l : List α} {k : Nat} (h : k < l.length), (l[k] :: l.eraseIdx k).Perm l
  | a :: l, 0, _ => List.Perm.refl _
  | a :: l, k + 1, h => by
    have := cons_eraseIdx_perm (l := l) (k := k) (by simpa using h)
    exact (List.Perm.swap _ _ _).trans (this.cons a)

theorem isPrefixOf_false {p q : Loc} (h : ¬ p <+: q) : p.isPrefixOf q = false := by
  cases hx : p.isPrefixOf q with
  | false => rfl
  | true => exact absurd (List.isPrefixOf_iff_prefix.1 hx) h

/-- a write towards a tree it is part of -/
theorem writeAt_sub {t y : Tree} {p : Loc} {e : Entry} (hs : Sub t y) (hy : y p = some e) (hw : ∀ q, q <+: p → q ≠ p → y q = some .dir)
    (hf : e ≠ .dir → t p = none) : ∃ t', writeAt t p e = some t' ∧ Sub t t' ∧ Sub t' y ∧ t' p = some e ∧ (∀ q, q <+: p → t' q ≠ none) ∧
      ∀ q, t' q ≠ none → t q ≠ none ∨ q <+: p := by
  have hnb : blocked t p = false := by
    unfold blocked
    rw [List.any_eq_false]
    intro j hj
    rw [List.mem_range] at hj
    cases hx : t (p.take j) with
    | none => simp
    | some e' =>
      have h1 := hs _ _ hx
      rw [hw (p.take j) (List.take_prefix _ _) (by intro h; have := congrArg List.length h; simp at this; omega)] at h1
      simp [← h1]
  have hok : ¬ (t p ≠ none ∧ ¬ (e = .dir ∧ t p = some .dir)) := by
    rintro ⟨h1, h2⟩
    by_cases he : e = .dir
    · cases hx : t p with
      | none => exact h1 hx
      | some e' =>
        have := hs _ _ hx
        rw [hy] at this
        cases this
        exact h2 ⟨he, by rw [hx, he]⟩
    · exact h1 (hf he)
  have hin : ∀ q, dirsAbove t p q = if q <+: p ∧ q ≠ p ∧ t q = none then some .dir else t q := by
    intro q
    unfold dirsAbove
    by_cases h1 : q <+: p
    · by_cases h2 : q = p
      · simp [h2]
      · cases hx : t q <;> simp [h1, h2, List.isPrefixOf_iff_prefix]
    · simp [h1, isPrefixOf_false h1]
  refine ⟨_, by unfold writeAt; rw [hnb, if_neg (by simp), if_neg hok], ?_, ?_, by simp, ?_, ?_⟩
  · intro q e' h
    dsimp only
    split
    · rename_i hq
      subst hq
      have := hs _ _ h
      rw [hy] at this
      exact this
    · rw [hin, if_neg (by rw [h]; simp)]
      exact h
  · intro q e' h
    dsimp only at h
    split at h
    · rename_i hq
      subst hq
      cases h
      exact hy
    · rw [hin] at h
      split at h
      · rename_i hc
        cases h
        exact hw q hc.1 hc.2.1
      · exact hs _ _ h
  · intro q hq
    split
    · simp
    · rename_i hne
      rw [hin]
      split
      · simp
      · rename_i hc
        intro hx
        exact hc ⟨hq, hne, hx⟩
  · intro q hq
    split at hq
    · rename_i h
      subst h
      exact .inr List.prefix_rfl
    · rw [hin] at hq
      split at hq
      · rename_i hc
        exact .inr hc.1
      · exact .inl hq

section
variable {pk : Pkgs P} {ws : P → List (Loc × Entry)} {cap : Nat} {g : Graph Str P S} {hot : Str → Prop} {T0 : Tree}

/-- before a package is started, nothing is where it goes -/
theorem at_free (hb : Base pk g hot T0) {k : Nat} {y : Ext} {nd : Node Str P S} (h : At pk g hot T0 k y) (hk : g.nodes[k]? = some nd) (ht : Top g hot k)
    {r : Loc} {e : Entry} (hc : pk.content nd.pkg r = some e) : y.tree (targetDir g k ++ r) = none := by
  have hg := hb.inst
  have ho := ord_of hg
  obtain ⟨h0, n, ρ, hl, hh⟩ := ht
  have htf := target_folder hg.tree ho h0 hl
  have hd : targetDir g k = nameSegs n ++ folder ρ := by
    rw [folder_cons] at htf; simpa using htf
  cases hx : y.tree (targetDir g k ++ r) with
  | none => rfl
  | some e' =>
    exfalso
    rcases (h.tree _ e').1 hx with hT | ⟨i, hi, hti, hput | ⟨_, _, ⟨π', hl', hpre⟩⟩⟩
    · rw [hd, List.append_assoc, hb.clean n hh] at hT; cases hT
    · obtain ⟨nd', π', r', hi', hl', hp', hc'⟩ := hput
      rw [← List.cons_append, htf] at hp'
      have := (same_place hg h0 hti.1 hk hi' hl hl' hc hc' hp').1
      omega
    · rw [← List.cons_append, htf] at hpre
      have := le_of_folder_prefix hg hl hl' ((List.prefix_append _ _).trans hpre)
      omega

/-- once it is started, it belongs there, and so do the folders above it -/
theorem at_puts (hb : Base pk g hot T0) {k i : Nat} {y : Ext} {nd : Node Str P S} (h : At pk g hot T0 k y) (hi : i < k) (hn : g.nodes[i]? = some nd)
    (ht : Top g hot i) {r : Loc} {e : Entry} (hc : pk.content nd.pkg r = some e) : y.tree (targetDir g i ++ r) = some e := by
  have hg := hb.inst
  have ho := ord_of hg
  obtain ⟨h0, n, ρ, hl, hh⟩ := id ht
  have htf := target_folder hg.tree ho h0 hl
  exact (h.tree _ e).2 (.inr ⟨i, hi, ht, .inl ⟨nd, _, r, hn, hl, by rw [← List.cons_append, htf], hc⟩⟩)

theorem at_way (hb : Base pk g hot T0) {k i : Nat} {y : Ext} (h : At pk g hot T0 k y) (hi : i < k)
    (ht : Top g hot i) {q : Loc} (hq : q <+: targetDir g i) (hne : q ≠ targetDir g i) : y.tree q = some .dir := by
  have hg := hb.inst
  have ho := ord_of hg
  obtain ⟨h0, n, ρ, hl, hh⟩ := id ht
  have htf := target_folder hg.tree ho h0 hl
  have hd : targetDir g i = nameSegs n ++ folder ρ := by
    rw [folder_cons] at htf; simpa using htf
  cases hT : T0 q with
  | none =>
    refine (h.tree _ _).2 (.inr ⟨i, hi, ht, .inr ⟨rfl, hT, _, hl, ?_⟩⟩)
    rw [← htf]
    obtain ⟨z, hz⟩ := hq
    exact ⟨z, by rw [← hz]; rfl⟩
  | some e =>
    rw [hd] at hq
    have : e = .dir := by
      rcases List.prefix_or_prefix_of_prefix hq (List.prefix_append (nameSegs n) (folder ρ)) with h1 | ⟨z, rfl⟩
      · exact hb.way n hh q e h1 hT
      · rw [hb.clean n hh z] at hT; cases hT
    subst this
    exact (h.tree _ _).2 (.inl hT)

/-- the folder of a package, and what it writes there -/
def placed (g : Graph Str P S) (i : Nat) (ws : List (Loc × Entry)) : List (Loc × Entry) := ws.map fun w => (targetDir g i ++ w.1, w.2)

/-- the package needs a rebuild -/
def needs (pk : Pkgs P) (g : Graph Str P S) (i : Nat) : Bool := match g.nodes[i]? with
  | none => false
  | some nd => pk.scripts nd.pkg || !(pk.bins nd.pkg).isEmpty

/-- the tree after the first `k` packages, one after the other -/
def upTo (pk : Pkgs P) (g : Graph Str P S) (T0 : Tree) (k : Nat) : Option Ext :=
  (List.range k).foldl (fun x i => x.bind fun x => extractNode pk g x i) (some ⟨T0, [], 0⟩)

theorem upTo_succ (k : Nat) : upTo pk g T0 (k + 1) = (upTo pk g T0 k).bind fun x => extractNode pk g x k := by
  unfold upTo
  rw [List.range_succ, List.foldl_append]
  rfl

structure XInv (pk : Pkgs P) (ws : P → List (Loc × Entry)) (g : Graph Str P S) (hot : Str → Prop) (T0 : Tree) (x : Run) (y : Ext) : Prop where
  seq : upTo pk g T0 x.next = some y
  at_ : At pk g hot T0 x.next y
  le : x.next ≤ g.nodes.length
  above : Sub T0 x.tree
  within : Sub x.tree y.tree
  names : (x.tasks.map (·.1)).Nodup
  task : ∀ t ∈ x.tasks, t.1 < x.next ∧ Top g hot t.1 ∧ ∃ nd done, g.nodes[t.1]? = some nd ∧ placed g t.1 (ws nd.pkg) = done ++ t.2
  fresh : ∀ t ∈ x.tasks, ∀ w ∈ t.2, w.2 ≠ .dir → x.tree w.1 = none
  wrote : ∀ i nd, i < x.next → Top g hot i → g.nodes[i]? = some nd → ∀ w ∈ placed g i (ws nd.pkg),
    (∃ t ∈ x.tasks, t.1 = i ∧ w ∈ t.2) ∨ ∀ q, q <+: w.1 → x.tree q ≠ none
  pend : (x.pending ++ (x.tasks.map (·.1)).filter (needs pk g)).Perm y.pending
  cnt : x.count + x.tasks.length = y.count

theorem placed_mem {i : Nat} {l : List (Loc × Entry)} {w : Loc × Entry} (h : w ∈ placed g i l) : ∃ r, (r, w.2) ∈ l ∧ w.1 = targetDir g i ++ r := by
  obtain ⟨a, ha, rfl⟩ := List.mem_map.1 h
  exact ⟨a.1, ha, rfl⟩

/-- what a started package writes belongs there -/
theorem write_ok (hb : Base pk g hot T0) (hw : ∀ i nd, i ≠ 0 → g.nodes[i]? = some nd → WrittenAs (pk.content nd.pkg) (ws nd.pkg)) {k i : Nat} {y : Ext} {nd : Node Str P S}
    (h : At pk g hot T0 k y) (hi : i < k) (hn : g.nodes[i]? = some nd) (ht : Top g hot i) {w : Loc × Entry} (hm : w ∈ placed g i (ws nd.pkg)) :
    y.tree w.1 = some w.2 ∧ ∀ q, q <+: w.1 → q ≠ w.1 → y.tree q = some .dir := by
  obtain ⟨r, hr, e⟩ := placed_mem hm
  obtain ⟨h1, h2⟩ := (hw i nd ht.1 hn).part _ hr
  rw [e]
  refine ⟨at_puts hb h hi hn ht h1, fun q hq hne => ?_⟩
  by_cases hqt : q <+: targetDir g i ∧ q ≠ targetDir g i
  · exact at_way hb h hi ht hqt.1 hqt.2
  · have : targetDir g i <+: q := by
      rcases List.prefix_or_prefix_of_prefix hq (List.prefix_append (targetDir g i) r) with h3 | h3
      · by_cases h4 : q = targetDir g i
        · rw [h4]; exact List.prefix_rfl
        · exact absurd ⟨h3, h4⟩ hqt
      · exact h3
    obtain ⟨z, rfl⟩ := this
    refine at_puts hb h hi hn ht (h2 z ?_ ?_)
    · exact (List.prefix_append_right_inj _).1 hq
    · intro h3; exact hne (by rw [h3])

theorem xinv_init (hb : Base pk g hot T0) : ∃ y, XInv pk ws g hot T0 (xinit T0) y := by
  have hT : (xinit T0).tree = T0 := by
    funext p
    simp only [xinit]
    split
    · rename_i h; rw [h, hb.root]
    · rfl
  refine ⟨⟨T0, [], 0⟩, rfl, ⟨by intro p e; simp [xinit], by intro i; simp [xinit], fun _ => rfl⟩, Nat.zero_le _, ?_, ?_, List.nodup_nil,
    fun t ht => (by cases ht), fun t ht => (by cases ht), fun i nd hi => (by cases hi), List.Perm.refl _, rfl⟩
  · rw [hT]; exact fun _ _ h => h
  · rw [hT]; exact fun _ _ h => h

theorem writes_apart (hb : Base pk g hot T0) (hw : ∀ i nd, i ≠ 0 → g.nodes[i]? = some nd → WrittenAs (pk.content nd.pkg) (ws nd.pkg)) {i j : Nat}
    {nd nd' : Node Str P S} (i0 : Top g hot i) (j0 : Top g hot j) (hi : g.nodes[i]? = some nd) (hj : g.nodes[j]? = some nd')
    {a b : Loc × Entry} (ha : a ∈ placed g i (ws nd.pkg)) (hb' : b ∈ placed g j (ws nd'.pkg)) (h : a.1 = b.1) : i = j := by
  have hg := hb.inst
  have ho := ord_of hg
  obtain ⟨r, hr, e⟩ := placed_mem ha
  obtain ⟨r', hr', e'⟩ := placed_mem hb'
  obtain ⟨h0, n, ρ, hl, _⟩ := i0
  obtain ⟨h0', n', ρ', hl', _⟩ := j0
  have htf := target_folder hg.tree ho h0 hl
  have htf' := target_folder hg.tree ho h0' hl'
  refine (same_place hg h0 h0' hi hj hl hl' ((hw i nd h0 hi).part _ hr).1 ((hw j nd' h0' hj).part _ hr').1 ?_).1
  rw [← htf, ← htf', List.cons_append, List.cons_append, ← e, ← e', h]

theorem xinv_step (hb : Base pk g hot T0) (hw : ∀ i nd, i ≠ 0 → g.nodes[i]? = some nd → WrittenAs (pk.content nd.pkg) (ws nd.pkg))
    {x : Run} {y : Ext} (h : XInv pk ws g hot T0 x y) {ev : XEvent} {o : Option Run} (hs : xstep pk ws cap g x ev = some o) :
    ∃ x' y', o = some x' ∧ XInv pk ws g hot T0 x' y' ∧ Sub x.tree x'.tree := by
  have hg := hb.inst
  cases ev with
  | start =>
    simp only [xstep] at hs
    split at hs
    · split at hs
      · cases hs
      · rename_i nd hn
        have hlt := lt_of_get hn
        obtain ⟨z, hz, hat⟩ := extract_step hb hlt h.at_
        have hseq : upTo pk g T0 (x.next + 1) = some z := by rw [upTo_succ, h.seq]; exact hz
        split at hs
        · rename_i hc
          cases hs
          -- the package is not extracted
          have hzy : z = y := by
            unfold extractNode at hz
            by_cases h0 : x.next = 0
            · rw [if_pos h0] at hz; cases hz; rfl
            · rw [if_neg h0, hn] at hz
              simp only at hz
              have hc := hc.resolve_left h0
              rw [if_pos] at hz
              · cases hz; rfl
              · cases hx : x.tree (targetDir g x.next) with
                | none => exact absurd hx hc
                | some e => rw [h.within _ _ hx]; simp
          subst hzy
          have hcold : ¬ Top g hot x.next := by
            intro ht
            have hfree := at_free hb h.at_ hn ht (hg.dirs _ _ ht.1 hn)
            rw [List.append_nil] at hfree
            cases hx : x.tree (targetDir g x.next) with
            | none => exact (hc.resolve_left ht.1) hx
            | some e => rw [h.within _ _ hx] at hfree; cases hfree
          refine ⟨_, _, rfl, ⟨hseq, hat, hlt, h.above, h.within, h.names, ?_, h.fresh, ?_, h.pend, h.cnt⟩, fun _ _ h => h⟩
          · intro t ht
            obtain ⟨a, b⟩ := h.task t ht
            exact ⟨by show t.1 < x.next + 1; omega, b⟩
          · intro i nd' hi ht hn' w hm
            rcases Nat.lt_succ_iff_lt_or_eq.1 hi with hi | hi
            · exact h.wrote i nd' hi ht hn' w hm
            · subst hi
              exact absurd ht hcold
        · rename_i hc
          cases hs
          rw [not_or, not_not] at hc
          obtain ⟨h0, hnone⟩ := hc
          have hhot : Top g hot x.next := by
            by_cases ht : Top g hot x.next
            · exact ht
            · exfalso
              have := hb.cold _ _ h0 hn ht
              cases hT : T0 (targetDir g x.next) with
              | none => exact this hT
              | some e => rw [h.above _ _ hT] at hnone; cases hnone
          have hfree : y.tree (targetDir g x.next) = none := by
            have := at_free hb h.at_ hn hhot (hg.dirs _ _ h0 hn)
            rwa [List.append_nil] at this
          have hz' := hz
          unfold extractNode at hz'
          rw [if_neg h0, hn] at hz'
          simp only at hz'
          rw [if_neg (by rw [hfree]; simp)] at hz'
          obtain ⟨tz, _, htz⟩ := Option.map_eq_some_iff.1 hz'
          have hsub : Sub y.tree z.tree := by
            intro p e hp
            rw [hat.tree]
            rcases (h.at_.tree p e).1 hp with h1 | ⟨i, h1, h2⟩
            · exact .inl h1
            · exact .inr ⟨i, by omega, h2⟩
          have hnew : x.next ∉ x.tasks.map (·.1) := by
            intro hm
            obtain ⟨t, ht, e⟩ := List.mem_map.1 hm
            have := (h.task t ht).1
            omega
          refine ⟨_, z, rfl, ⟨hseq, hat, hlt, h.above, fun p e hp => hsub _ _ (h.within _ _ hp), ?_, ?_, ?_, ?_, ?_, ?_⟩, fun _ _ h => h⟩
          · dsimp only
            rw [List.map_append, List.nodup_append]
            refine ⟨h.names, by simp, ?_⟩
            intro a ha b hb' hab
            simp only [List.map_cons, List.map_nil, List.mem_singleton] at hb'
            subst hab hb'
            exact hnew ha
          · intro t ht
            dsimp only at ht ⊢
            rcases List.mem_append.1 ht with ht | ht
            · obtain ⟨a, b⟩ := h.task t ht
              exact ⟨by omega, b⟩
            · cases List.mem_singleton.1 ht
              exact ⟨by show x.next < x.next + 1; omega, hhot, nd, [], hn, rfl⟩
          · intro t ht w hm hd
            dsimp only at ht ⊢
            rcases List.mem_append.1 ht with ht | ht
            · exact h.fresh t ht w hm hd
            · cases List.mem_singleton.1 ht
              obtain ⟨r, hr, e⟩ := placed_mem (g := g) (i := x.next) hm
              have := at_free hb h.at_ hn hhot ((hw _ _ h0 hn).part _ hr).1
              rw [e]
              cases hx : x.tree (targetDir g x.next ++ r) with
              | none => rfl
              | some e => rw [h.within _ _ hx] at this; cases this
          · intro i nd' hi ht hn' w hm
            dsimp only at hi ⊢
            rcases Nat.lt_succ_iff_lt_or_eq.1 hi with hi | hi
            · rcases h.wrote i nd' hi ht hn' w hm with ⟨t, h1, h2⟩ | h1
              · exact .inl ⟨t, List.mem_append_left _ h1, h2⟩
              · exact .inr h1
            · subst hi
              rw [hn] at hn'
              cases hn'
              exact .inl ⟨_, List.mem_append_right _ (List.mem_singleton.2 rfl), rfl, hm⟩
          · dsimp only
            rw [← htz]
            dsimp only
            rw [List.map_append, List.filter_append, ← List.append_assoc]
            have e : ([(x.next, (ws nd.pkg).map fun w => (targetDir g x.next ++ w.1, w.2))].map (·.1)).filter (needs pk g) =
                if (pk.scripts nd.pkg || !(pk.bins nd.pkg).isEmpty) = true then [x.next] else [] := by
              simp only [List.map_cons, List.map_nil, List.filter_cons, List.filter_nil, needs, hn]
            rw [e]
            split
            · exact h.pend.append_right _
            · simpa using h.pend
          · dsimp only
            rw [← htz]
            dsimp only
            rw [List.length_append]
            have := h.cnt
            simp
            omega
    · cases hs
  | work k =>
    simp only [xstep] at hs
    split at hs
    · cases hs
    · -- the package is done
      rename_i i hk
      split at hs
      · cases hs
      · rename_i nd hn
        cases hs
        have hkl := (List.getElem?_eq_some_iff.1 hk).1
        have hperm : ((i, []) :: x.tasks.eraseIdx k).Perm x.tasks := by
          have := cons_eraseIdx_perm hkl
          rwa [(List.getElem?_eq_some_iff.1 hk).2] at this
        have hmem : ∀ t, t ∈ x.tasks.eraseIdx k → t ∈ x.tasks := fun t ht => List.mem_of_mem_eraseIdx ht
        have hnd : (((i, []) :: x.tasks.eraseIdx k).map (·.1)).Nodup := ((hperm.map _).nodup_iff).2 h.names
        refine ⟨_, y, rfl, ⟨h.seq, h.at_, h.le, h.above, h.within, (List.nodup_cons.1 hnd).2, fun t ht => h.task t (hmem t ht),
          fun t ht => h.fresh t (hmem t ht), ?_, ?_, ?_⟩, fun _ _ h => h⟩
        · intro j nd' hj ht hn' w hm
          rcases h.wrote j nd' hj ht hn' w hm with ⟨t, h1, h2, h3⟩ | h1
          · left
            rcases List.mem_cons.1 (hperm.mem_iff.2 h1) with h4 | h4
            · rw [h4] at h3; cases h3
            · exact ⟨t, h4, h2, h3⟩
          · exact .inr h1
        · dsimp only
          refine List.Perm.trans ?_ h.pend
          have hp2 := (hperm.map (·.1)).filter (needs pk g)
          simp only [List.map_cons] at hp2
          rw [List.filter_cons] at hp2
          have e : needs pk g i = (pk.scripts nd.pkg || !(pk.bins nd.pkg).isEmpty) := by simp only [needs, hn]
          rw [e] at hp2
          split at hp2
          · rename_i hc
            rw [if_pos hc, List.append_assoc]
            exact hp2.append_left _
          · rename_i hc
            rw [if_neg hc]
            exact hp2.append_left _
        · dsimp only
          have h1 := hperm.length_eq
          have h2 := h.cnt
          simp only [List.length_cons] at h1
          omega
    · -- one more entry
      rename_i i w rest hk
      cases hs
      have hkl := (List.getElem?_eq_some_iff.1 hk).1
      have hin : (i, w :: rest) ∈ x.tasks := List.mem_of_getElem? hk
      obtain ⟨hi, htop, nd, done, hn, hpl⟩ := h.task _ hin
      dsimp only at hi htop hn hpl
      have hwm : w ∈ placed g i (ws nd.pkg) := by rw [hpl]; simp
      obtain ⟨h1, h2⟩ := write_ok hb hw h.at_ hi hn htop hwm
      obtain ⟨t', e1, s1, s2, e2, e3, e4⟩ := writeAt_sub h.within h1 h2 (fun hd => h.fresh _ hin w (by simp) hd)
      have hmem : ∀ t, t ∈ x.tasks.set k (i, rest) → t = (i, rest) ∨ ∃ l, x.tasks[l]? = some t ∧ l ≠ k := by
        intro t ht
        obtain ⟨l, hl⟩ := List.mem_iff_getElem?.1 ht
        rw [List.getElem?_set] at hl
        split at hl
        · cases hl; exact .inl rfl
        · exact .inr ⟨l, hl, by omega⟩
      have hfst : (x.tasks.set k (i, rest)).map (·.1) = x.tasks.map (·.1) := by
        rw [List.map_set]
        apply List.ext_getElem?
        intro l
        rw [List.getElem?_set]
        split
        · rename_i hl
          subst hl
          rw [List.getElem?_map, hk]
          simp [hkl]
        · rfl
      refine ⟨{ x with tree := t', tasks := x.tasks.set k (i, rest) }, y, by rw [e1]; rfl, ⟨h.seq, h.at_, h.le, fun p e hp => s1 _ _ (h.above _ _ hp), s2, by rw [hfst]; exact h.names, ?_, ?_, ?_, ?_, ?_⟩, s1⟩
      · intro t ht
        rcases hmem t ht with rfl | ⟨l, hl, _⟩
        · exact ⟨hi, htop, nd, done ++ [w], hn, by rw [hpl]; simp⟩
        · exact h.task t (List.mem_of_getElem? hl)
      · intro t ht b hb' hd
        dsimp only
        -- another entry, which is no folder
        have key : t.1 < x.next ∧ Top g hot t.1 ∧ (∃ nd', g.nodes[t.1]? = some nd' ∧ b ∈ placed g t.1 (ws nd'.pkg)) ∧ x.tree b.1 = none ∧ b.1 ≠ w.1 := by
          rcases hmem t ht with rfl | ⟨l, hl, hlk⟩
          · refine ⟨hi, htop, ⟨nd, hn, by rw [hpl]; dsimp only at hb'; simp [hb']⟩, h.fresh _ hin b (by dsimp only at hb'; simp [hb']) hd, ?_⟩
            intro hbw
            have ho : (placed g i (ws nd.pkg)).Pairwise fun a b => a.1 = b.1 → a.2 = .dir ∧ True := by
              unfold placed
              rw [List.pairwise_map]
              exact (hw i nd htop.1 hn).once.imp fun {a b} hab he => ⟨hab (by simpa using he), trivial⟩
            rw [hpl, List.pairwise_append] at ho
            have := (List.pairwise_cons.1 ho.2.1).1 b hb' hbw.symm
            have hbp : b ∈ placed g i (ws nd.pkg) := by rw [hpl]; dsimp only at hb'; simp [hb']
            have h5 := (write_ok hb hw h.at_ hi hn htop hbp).1
            rw [hbw, h1] at h5
            exact hd (by rw [← Option.some.inj h5]; exact this.1)
          · have htm := List.mem_of_getElem? hl
            obtain ⟨a1, a2, nd', done', a3, a4⟩ := h.task t htm
            have hbp : b ∈ placed g t.1 (ws nd'.pkg) := by rw [a4]; simp [hb']
            refine ⟨a1, a2, ⟨nd', a3, hbp⟩, h.fresh t htm b hb' hd, ?_⟩
            intro hbw
            have hij := writes_apart hb hw a2 htop a3 hn hbp hwm hbw
            have h6 := List.getElem?_map (f := fun t : Nat × List (Loc × Entry) => t.1) (l := x.tasks) (i := l)
            have h7 := List.getElem?_map (f := fun t : Nat × List (Loc × Entry) => t.1) (l := x.tasks) (i := k)
            rw [hl] at h6
            rw [hk] at h7
            have hll : l < (x.tasks.map fun t => t.1).length := by
              have := (List.getElem?_eq_some_iff.1 hl).1; simpa using this
            exact hlk (((List.getElem?_inj hll h.names).1 (by rw [h6, h7]; simp [hij])))
        obtain ⟨a1, a2, ⟨nd', a3, a4⟩, a5, a6⟩ := key
        cases hx : t' b.1 with
        | none => rfl
        | some e' =>
          exfalso
          rcases e4 b.1 (by rw [hx]; simp) with h3 | h3
          · exact h3 a5
          · have h4 := h2 _ h3 a6
            rw [(write_ok hb hw h.at_ a1 a3 a2 a4).1] at h4
            exact hd (Option.some.inj h4)
      · intro j nd' hj ht hn' b hm
        dsimp only at hj ⊢
        rcases h.wrote j nd' hj ht hn' b hm with ⟨t, h3, h4, h5⟩ | h3
        · obtain ⟨l, hl⟩ := List.mem_iff_getElem?.1 h3
          by_cases hlk : l = k
          · subst hlk
            rw [hk] at hl
            cases hl
            dsimp only at h4 h5
            rcases List.mem_cons.1 h5 with rfl | h5
            · exact .inr e3
            · exact .inl ⟨(i, rest), List.mem_set hkl _, h4, h5⟩
          · exact .inl ⟨t, List.mem_of_getElem? (i := l) (by rw [List.getElem?_set_ne (by omega)]; exact hl), h4, h5⟩
        · right
          intro q hq hx
          cases hy : x.tree q with
          | none => exact h3 q hq hy
          | some e => rw [s1 _ _ hy] at hx; cases hx
      · dsimp only
        rw [hfst]
        exact h.pend
      · dsimp only
        rw [List.length_set]
        exact h.cnt

theorem xreach_inv (hb : Base pk g hot T0) (hw : ∀ i nd, i ≠ 0 → g.nodes[i]? = some nd → WrittenAs (pk.content nd.pkg) (ws nd.pkg)) {x : Run}
    (h : XReach pk ws cap g T0 x) : ∃ y, XInv pk ws g hot T0 x y := by
  induction h with
  | init => exact xinv_init hb
  | step ev _ hs ih =>
    obtain ⟨y, hy⟩ := ih
    obtain ⟨x', y', e, h', _⟩ := xinv_step hb hw hy hs
    cases e
    exact ⟨y', h'⟩

/-- when everything is done, the tree is the one made by extracting one after the other -/
theorem xinv_done (hb : Base pk g hot T0) (hw : ∀ i nd, i ≠ 0 → g.nodes[i]? = some nd → WrittenAs (pk.content nd.pkg) (ws nd.pkg)) {x : Run} {y : Ext}
    (h : XInv pk ws g hot T0 x y) (hd : x.done g = true) :
    extractAll pk g T0 = some y ∧ x.tree = y.tree ∧ x.pending.Perm y.pending ∧ x.count = y.count := by
  have hg := hb.inst
  have ho := ord_of hg
  simp only [Run.done, Bool.and_eq_true, decide_eq_true_eq, List.isEmpty_iff] at hd
  obtain ⟨hd1, hd2⟩ := hd
  have hnx : x.next = g.nodes.length := Nat.le_antisymm h.le hd1
  have hT : (fun p => if p = [] then some Entry.dir else T0 p) = T0 := by
    funext p
    split
    · rename_i h; rw [h, hb.root]
    · rfl
  have hp := h.pend
  have hc := h.cnt
  rw [hd2] at hp hc
  refine ⟨?_, ?_, by simpa using hp, by simpa using hc⟩
  · unfold extractAll
    rw [hT, ← hnx]
    exact h.seq
  · funext p
    cases hy : y.tree p with
    | none =>
      cases hx : x.tree p with
      | none => rfl
      | some e => rw [h.within _ _ hx] at hy; cases hy
    | some e =>
      have hsome : x.tree p ≠ none := by
        rcases (h.at_.tree p e).1 hy with hT | ⟨i, hi, ht, hput | ⟨_, _, π, hl, hpre⟩⟩
        · rw [h.above _ _ hT]; simp
        · obtain ⟨nd, π, r, a1, a2, a3, a4⟩ := hput
          have htf := target_folder hg.tree ho ht.1 a2
          have hpe : p = targetDir g i ++ r := by
            rw [← htf] at a3
            simpa using a3
          have : ∃ w ∈ ws nd.pkg, r <+: w.1 := by
            rcases (hw i nd ht.1 a1).all r e a4 with h1 | ⟨w, h1, h2, _⟩
            · exact ⟨_, h1, List.prefix_rfl⟩
            · exact ⟨w, h1, h2⟩
          obtain ⟨w, hw1, hw2⟩ := this
          rcases h.wrote i nd hi ht a1 (targetDir g i ++ w.1, w.2) (List.mem_map.2 ⟨w, hw1, rfl⟩) with ⟨t, h1, _⟩ | h1
          · rw [hd2] at h1; cases h1
          · rw [hpe]
            exact h1 _ ((List.prefix_append_right_inj _).2 hw2)
        · obtain ⟨nd, hn⟩ := located_exists hl
          have htf := target_folder hg.tree ho ht.1 hl
          have hpe : p <+: targetDir g i := by
            rw [← htf] at hpre
            obtain ⟨z, hz⟩ := hpre
            exact ⟨z, by simpa using hz⟩
          have : ∃ w, w ∈ ws nd.pkg := by
            rcases (hw i nd ht.1 hn).all [] .dir (hg.dirs _ _ ht.1 hn) with h1 | ⟨w, h1, _⟩
            · exact ⟨_, h1⟩
            · exact ⟨w, h1⟩
          obtain ⟨w, hw1⟩ := this
          rcases h.wrote i nd hi ht hn (targetDir g i ++ w.1, w.2) (List.mem_map.2 ⟨w, hw1, rfl⟩) with ⟨t, h1, _⟩ | h1
          · rw [hd2] at h1; cases h1
          · exact h1 _ (hpe.trans (List.prefix_append _ _))
      cases hx : x.tree p with
      | none => exact absurd hx hsome
      | some e' => rw [← h.within _ _ hx, hy]

theorem at_mono {k l : Nat} {y z : Ext} (hkl : k ≤ l) (h : At pk g hot T0 k y) (h' : At pk g hot T0 l z) : Sub y.tree z.tree := by
  intro p e hp
  rw [h'.tree]
  rcases (h.tree p e).1 hp with h1 | ⟨i, h1, h2⟩
  · exact .inl h1
  · exact .inr ⟨i, by omega, h2⟩

theorem xreach_congr {t t' : Tree} (h : xinit t = xinit t') {x : Run} (hx : XReach pk ws cap g t x) : XReach pk ws cap g t' x := by
  induction hx with
  | init => rw [h]; exact .init
  | step ev _ hs ih => exact .step ev ih hs

/-- something can always happen, until everything is done -/
theorem xprogress {x : Run} {y : Ext} (h : XInv pk ws g hot T0 x y) (hd : x.done g = false) : ∃ ev o, xstep pk ws cap g x ev = some o := by
  by_cases ht : x.tasks = []
  · have hlt : x.next < g.nodes.length := by
      simp only [Run.done, ht, List.isEmpty_nil, Bool.and_true, decide_eq_false_iff_not] at hd
      omega
    refine ⟨.start, ?_⟩
    simp only [xstep, ht, List.length_nil, List.getElem?_eq_getElem hlt]
    rw [if_pos (by omega)]
    split
    · exact ⟨_, rfl⟩
    · exact ⟨_, rfl⟩
  · obtain ⟨t, l, hl⟩ := List.exists_cons_of_ne_nil ht
    refine ⟨.work 0, ?_⟩
    have hk : x.tasks[0]? = some t := by rw [hl]; rfl
    obtain ⟨_, _, nd, _, hn, _⟩ := h.task t (by rw [hl]; simp)
    obtain ⟨i, rem⟩ := t
    simp only [xstep, hk]
    cases rem with
    | nil =>
      have hn : g.nodes[i]? = some nd := hn
      simp only [hn]
      exact ⟨_, rfl⟩
    | cons w rest => exact ⟨_, rfl⟩

end

/-- What is under way and what is still to come. -/
theorem concurrent_core {pk : Pkgs P} {ws : P → List (Loc × Entry)} {cap : Nat} {g : Graph Str P S} {hot : Str → Prop} {T0 : Tree} (hb : Base pk g hot T0)
    (hw : ∀ i nd, i ≠ 0 → g.nodes[i]? = some nd → WrittenAs (pk.content nd.pkg) (ws nd.pkg)) {x : Run} (h : XReach pk ws cap g T0 x) {z : Ext}
    (hz : extractAll pk g T0 = some z) (ha : At pk g hot T0 g.nodes.length z) :
    (∀ ev, xstep pk ws cap g x ev ≠ some none) ∧ (x.done g = false → ∃ ev y, xstep pk ws cap g x ev = some (some y)) ∧
    (x.done g = true → x.tree = z.tree ∧ x.pending.Perm z.pending ∧ x.count = z.count) ∧
    ∀ p, x.tree p = T0 p ∨ (T0 p = none ∧ x.tree p = z.tree p) := by
  obtain ⟨y, hy⟩ := xreach_inv hb hw h
  have hnf : ∀ ev, xstep pk ws cap g x ev ≠ some none := by
    intro ev hs
    obtain ⟨_, _, e, _⟩ := xinv_step hb hw hy hs
    cases e
  refine ⟨hnf, ?_, ?_, ?_⟩
  · intro hd
    obtain ⟨ev, o, ho⟩ := xprogress (cap := cap) hy hd
    obtain ⟨x', _, e, _⟩ := xinv_step hb hw hy ho
    exact ⟨ev, x', by rw [ho, e]⟩
  · intro hd
    obtain ⟨e, h1⟩ := xinv_done hb hw hy hd
    rw [hz] at e
    cases e
    exact h1
  · intro p
    have hsub := at_mono hy.le hy.at_ ha
    cases hT : T0 p with
    | some e => rw [hy.above _ _ hT]; exact .inl rfl
    | none =>
      cases hx : x.tree p with
      | none => exact .inl rfl
      | some e => exact .inr ⟨rfl, (hsub _ _ (hy.within _ _ hx)).symm⟩

section
variable (pk : Pkgs P) (v : LockView P S V I) (ws : P → List (Loc × Entry)) (cap : Nat) (g : Graph Str P S)

/-- the tree extraction starts from, when there is nothing to rely on -/
theorem fresh_xinit {d : Disk V I} (hd : Fresh d) : xinit (prune v g d).tree = xinit wiped := by
  obtain ⟨hm, hd | hr⟩ := hd
  · unfold prune
    rw [if_pos (hd [])]
    unfold xinit
    congr 1
    funext p
    unfold wiped
    simp [hd p]
  · unfold prune
    rw [hr, hm]
    simp

/-- C33: a first install, several packages being extracted at a time in any order, file by file: nothing fails, it does not get
stuck, and when it is done there is exactly what extracting one package after the other leaves (and so C33_fresh). -/
theorem C33_concurrent (hg : Installable pk g)
    (hw : ∀ i nd, i ≠ 0 → g.nodes[i]? = some nd → WrittenAs (pk.content nd.pkg) (ws nd.pkg)) (d : Disk V I) (hd : Fresh d) (x : Run)
    (h : XReach pk ws cap g (prune v g d).tree x) :
    (∀ ev, xstep pk ws cap g x ev ≠ some none) ∧ (x.done g = false → ∃ ev y, xstep pk ws cap g x ev = some (some y)) ∧
    ∃ r, install pk v g d = some r ∧ Installed pk g r.1.tree ∧
      (x.done g = true → x.tree = r.1.tree ∧ x.pending.Perm r.2.pending ∧ x.count = r.2.count) := by
  obtain ⟨l, z, hl, e1, e2, e3⟩ := fresh_install (v := v) hg hd
  have hz : extractAll pk g wiped = some z := by
    obtain ⟨z', h1, _⟩ := extract_all (base_wiped hg)
    have : install pk v g d = some (⟨z'.tree, some l.packages⟩, z') := by
      unfold install
      rw [fresh_extract hd]
      simp only [h1, hl, Option.bind_some, Option.map_some]
    rw [e1] at this
    simp only [Option.some.injEq, Prod.mk.injEq] at this
    rw [h1, this.2]
  obtain ⟨c1, c2, c3, _⟩ := concurrent_core (base_wiped hg) hw (xreach_congr (fresh_xinit v g hd) h) hz e2
  exact ⟨c1, c2, _, e1, e3, c3⟩

/-- C33: the same when another tree was installed before, for changes that pruning notices. -/
theorem C33_concurrent_partial (g0 : Graph Str P S) (h0 : Installable pk g0) (hg : Installable pk g)
    (hw : ∀ i nd, i ≠ 0 → g.nodes[i]? = some nd → WrittenAs (pk.content nd.pkg) (ws nd.pkg)) (d : Disk V I) (recorded : IMap Str (LNode V I))
    (hd : Installed pk g0 d.tree) (hm : d.metaFile = some recorded) (hn : Noticed pk v g0 g recorded) (x : Run)
    (h : XReach pk ws cap g (prune v g d).tree x) :
    (∀ ev, xstep pk ws cap g x ev ≠ some none) ∧ (x.done g = false → ∃ ev y, xstep pk ws cap g x ev = some (some y)) ∧
    ∃ r, install pk v g d = some r ∧ Installed pk g r.1.tree ∧
      (x.done g = true → x.tree = r.1.tree ∧ x.pending.Perm r.2.pending ∧ x.count = r.2.count) := by
  have hp : Prev pk v g0 g recorded d.tree := ⟨h0, hg, hd, hn⟩
  obtain ⟨l, z, hl, e1, e2, e3⟩ := hp.install rfl hm
  have hpe := prune_eq (v := v) (g := g) (d := d) (by rw [hp.root]; simp) hp.store hm
  have hz : extractAll pk g (prunedTree v g recorded d.tree) = some z := by
    obtain ⟨z', h1, _⟩ := extract_all hp.base
    have : install pk v g d = some (⟨z'.tree, some l.packages⟩, z') := by
      unfold Hoisted.install
      rw [hpe]
      simp only [h1, hl, Option.bind_some, Option.map_some]
    rw [e1] at this
    simp only [Option.some.injEq, Prod.mk.injEq] at this
    rw [h1, this.2]
  rw [hpe] at h
  obtain ⟨c1, c2, c3, _⟩ := concurrent_core hp.base hw h hz e2
  exact ⟨c1, c2, _, e1, e3, c3⟩

/-- C34: the states a first install can be interrupted in while packages are extracted concurrently are among those C34 is about. -/
theorem C34_concurrent (hg : Installable pk g)
    (hw : ∀ i nd, i ≠ 0 → g.nodes[i]? = some nd → WrittenAs (pk.content nd.pkg) (ws nd.pkg)) (d : Disk V I) (hd : Fresh d) (x : Run)
    (h : XReach pk ws cap g (prune v g d).tree x) : Interrupted pk v g d ⟨x.tree, (prune v g d).metaFile⟩ := by
  obtain ⟨l, z, hl, e1, e2, e3⟩ := fresh_install (v := v) hg hd
  have hz : extractAll pk g wiped = some z := by
    obtain ⟨z', h1, _⟩ := extract_all (base_wiped hg)
    have : install pk v g d = some (⟨z'.tree, some l.packages⟩, z') := by
      unfold install
      rw [fresh_extract hd]
      simp only [h1, hl, Option.bind_some, Option.map_some]
    rw [e1] at this
    simp only [Option.some.injEq, Prod.mk.injEq] at this
    rw [h1, this.2]
  obtain ⟨_, _, _, c4⟩ := concurrent_core (base_wiped hg) hw (xreach_congr (fresh_xinit v g hd) h) hz e2
  have hpt : ∀ p, p ≠ [] → (prune v g d).tree p = wiped p := by
    intro p hp
    have := congrArg (fun r : Run => r.tree p) (fresh_xinit v g hd)
    simpa [xinit, hp] using this
  refine .extracting _ _ e1 rfl fun p => ?_
  dsimp only
  by_cases hp : p = []
  · subst hp
    have hx : x.tree [] = some .dir := by
      rcases c4 [] with h1 | ⟨h1, _⟩
      · rw [h1]; simp [wiped]
      · simp [wiped] at h1
    have hzr : z.tree [] = some .dir := (e2.tree [] .dir).2 (.inl (by simp [wiped]))
    cases hT : (prune v g d).tree [] with
    | none => exact .inr ⟨rfl, .inl (by rw [hx, hzr])⟩
    | some e =>
      left
      obtain ⟨hm, hd | hr⟩ := hd
      · unfold prune at hT
        rw [if_pos (hd [])] at hT
        dsimp only at hT
        rw [hd] at hT
        cases hT
      · have : (prune v g d).tree [] = some .dir := by
          unfold prune
          rw [hr, hm]
          simp [wiped]
        rw [hx, ← hT, this]
  · rw [hpt p hp]
    rcases c4 p with h1 | ⟨h1, h2⟩
    · exact .inl h1
    · exact .inr ⟨h1, .inl h2⟩

end

/-! ### it comes to an end -/

/-- a run of events -/
def xrun (pk : Pkgs P) (ws : P → List (Loc × Entry)) (cap : Nat) (g : Graph Str P S) : Run → List XEvent → Option (Option Run)
  | x, [] => some (some x)
  | x, ev :: evs => match xstep pk ws cap g x ev with
    | none => none
    | some none => some none
    | some (some y) => xrun pk ws cap g y evs

/-- the number of events at most still to come -/
def togo (ws : P → List (Loc × Entry)) (g : Graph Str P S) (x : Run) : Nat :=
  ((g.nodes.drop x.next).map fun nd => (ws nd.pkg).length + 2).sum + (x.tasks.map fun t => t.2.length + 1).sum

theorem sum_eraseIdx {α : Type} (f : α → Nat) : ∀ {l : List α} {k : Nat} {a : α}, l[k]? = some a → (l.map f).sum = f a + ((l.eraseIdx k).map f).sum
  | a :: l, 0, _, h => by cases h; simp
  | b :: l, k + 1, a, h => by
    have := sum_eraseIdx f (l := l) (k := k) (a := a) (by simpa using h)
    simp only [List.map_cons, List.sum_cons, List.eraseIdx_cons_succ, this]
    omega

theorem sum_set {α : Type} (f : α → Nat) : ∀ {l : List α} {k : Nat} {a b : α}, l[k]? = some a → ((l.set k b).map f).sum + f a = (l.map f).sum + f b
  | a :: l, 0, _, b, h => by cases h; simp; omega
  | c :: l, k + 1, a, b, h => by
    have := sum_set f (l := l) (k := k) (a := a) (b := b) (by simpa using h)
    simp only [List.map_cons, List.sum_cons, List.set_cons_succ]
    omega

theorem togo_step {pk : Pkgs P} {ws : P → List (Loc × Entry)} {cap : Nat} {g : Graph Str P S} {x y : Run} {ev : XEvent}
    (h : xstep pk ws cap g x ev = some (some y)) : togo ws g y + 1 ≤ togo ws g x := by
  have hdrop : ∀ {k : Nat} {nd : Node Str P S}, g.nodes[k]? = some nd → g.nodes.drop k = nd :: g.nodes.drop (k + 1) := by
    intro k nd hk
    obtain ⟨hl, e⟩ := List.getElem?_eq_some_iff.1 hk
    rw [List.drop_eq_getElem_cons hl, e]
  cases ev with
  | start =>
    simp only [xstep] at h
    split at h
    · split at h
      · cases h
      · rename_i nd hn
        split at h
        · cases h
          simp only [togo, hdrop hn, List.map_cons, List.sum_cons]
          omega
        · cases h
          simp only [togo, hdrop hn, List.map_cons, List.sum_cons, List.map_append, List.sum_append, List.map_nil, List.sum_nil, List.length_map]
          omega
    · cases h
  | work k =>
    simp only [xstep] at h
    split at h
    · cases h
    · rename_i i hk
      split at h
      · cases h
      · cases h
        simp only [togo]
        have := sum_eraseIdx (fun t : Nat × List (Loc × Entry) => t.2.length + 1) hk
        simp only [List.length_nil] at this
        omega
    · rename_i i w rest hk
      simp only [Option.some.injEq] at h
      obtain ⟨t, _, e⟩ := Option.map_eq_some_iff.1 h
      subst e
      simp only [togo]
      have := sum_set (fun t : Nat × List (Loc × Entry) => t.2.length + 1) (b := (i, rest)) hk
      simp only [List.length_cons] at this
      omega

/-- C33: extraction ends, in whatever order things happen: every run has at most as many events as there are entries to write, and two
for each package. -/
theorem C33_concurrent_ends (pk : Pkgs P) (ws : P → List (Loc × Entry)) (cap : Nat) (g : Graph Str P S) (t : Tree) (evs : List XEvent) (y : Run)
    (h : xrun pk ws cap g (xinit t) evs = some (some y)) : evs.length ≤ (g.nodes.map fun nd => (ws nd.pkg).length + 2).sum := by
  have key : ∀ (evs : List XEvent) (x : Run), xrun pk ws cap g x evs = some (some y) → evs.length + togo ws g y ≤ togo ws g x := by
    intro evs
    induction evs with
    | nil => intro x h; cases h; simp
    | cons ev evs ih =>
      intro x h
      simp only [xrun] at h
      split at h
      · cases h
      · cases h
      · rename_i z hz
        have h1 := ih z h
        have h2 := togo_step hz
        simp only [List.length_cons]
        omega
  have := key evs _ h
  simp only [togo, xinit, List.drop_zero, List.map_nil, List.sum_nil, Nat.add_zero] at this
  omega

namespace Ex
/-- the entries of a package, in the order of its tarball -/
def ws (ver : Nat) : List (Loc × Entry) := [([], .dir), ([pj], .file (fileOf ver))]

theorem written (ver : Nat) : WrittenAs (pk.content ver) (ws ver) where
  part := by
    intro w hw
    simp only [ws, List.mem_cons, List.not_mem_nil, or_false] at hw
    rcases hw with rfl | rfl
    · refine ⟨by simp [pk], fun q h1 h2 => absurd (List.prefix_nil.1 h1) h2⟩
    · refine ⟨by simp [pk, pj], fun q h1 h2 => ?_⟩
      have : q = [] := by
        rcases q with _ | ⟨a, q⟩
        · rfl
        · exfalso
          apply h2
          obtain ⟨r, hr⟩ := h1
          simp only [List.cons_append, List.cons.injEq, List.append_eq_nil_iff] at hr
          rw [hr.1, hr.2.1]
      subst this
      simp [pk]
  once := by simp [ws]
  all := by
    intro r e h
    left
    simp only [pk] at h
    split at h
    · rename_i h1; cases h; simp [ws, h1]
    · split at h
      · rename_i h1; cases h; simp [ws, h1]
      · cases h

/-- both packages are under way at once; the second one is done first -/
def busy : List XEvent := [.start, .start, .start, .work 1, .work 0, .work 1, .work 1, .work 0, .work 0]

theorem reach_run {pk : Pkgs P} {ws : P → List (Loc × Entry)} {cap : Nat} {g : Graph Str P S} {t : Tree} :
    ∀ (evs : List XEvent) {x y : Run}, XReach pk ws cap g t x → xrun pk ws cap g x evs = some (some y) → XReach pk ws cap g t y
  | [], _, _, hx, h => by cases h; exact hx
  | ev :: evs, x, y, hx, h => by
    simp only [xrun] at h
    split at h
    · cases h
    · cases h
    · rename_i z hz
      exact reach_run evs (.step ev hx hz) h

/-- C33_concurrent is about this run: it is over, the pending packages are recorded in the other order, and the files are there -/
example : ∃ y, XReach pk ws 0 (pair 1 1) (prune v (pair 1 1) none_).tree y ∧ y.done (pair 1 1) = true ∧ y.pending = [2, 1] ∧
    y.tree [['a'], pj] = some (.file [1]) ∧ y.tree [['@', 's'], ['b'], pj] = some (.file [1]) := by
  have h : (xrun pk ws 0 (pair 1 1) (xinit (prune v (pair 1 1) none_).tree) busy).bind (fun o => o.map fun y =>
      (y.done (pair 1 1), y.pending, y.tree [['a'], pj], y.tree [['@', 's'], ['b'], pj])) =
      some (true, [2, 1], some (.file [1]), some (.file [1])) := by decide +kernel
  obtain ⟨o, h1, h2⟩ := Option.bind_eq_some_iff.1 h
  obtain ⟨y, h3, h4⟩ := Option.map_eq_some_iff.1 h2
  subst h3
  simp only [Prod.mk.injEq] at h4
  exact ⟨y, reach_run busy .init h1, h4.1, h4.2.1, h4.2.2.1, h4.2.2.2⟩

/-- with `concurrency = 1` the second package cannot be started before the first one is done -/
example : xrun pk ws 1 (pair 1 1) (xinit (prune v (pair 1 1) none_).tree) [.start, .start, .start] = none := rfl

end Ex

end Hoisted
end Oro
