import Verif.Props.Works
/- C80: concrete cases, and what is false of the code. -/

set_option linter.unusedSectionVars false

namespace Oro
namespace Works
namespace ExW
open Hoisted (Entry Tree Pkgs Disk)
open ExL (Pk Sp St E Nd mkEnv mkRoot ok final final_reach get get_eq requires_deps)

/-! packages d, e and n; the project wants version 1 of each, d wants e@2 and n@2, e@2 wants n@1 -/

def table : List (Sp × Nat × List Sp) :=
  [((['d'], ['1']), 1, [(['e'], ['2']), (['n'], ['2'])]), ((['e'], ['1']), 1, []), ((['e'], ['2']), 2, [(['n'], ['1'])]),
   ((['n'], ['1']), 1, []), ((['n'], ['2']), 2, [])]
def env : E := mkEnv table
def man : Manifest Str := { deps := [(['d'], ['1']), (['e'], ['1']), (['n'], ['1'])] }
def root : Nd := mkRoot [(['d'], ['1']), (['e'], ['1']), (['n'], ['1'])]

theorem root_ok : Node.new env.parse [] (['p'], 0) man true = some root := rfl

/-- the answer for n@2 is slow -/
def slow : List (REvent Sp) :=
  [.pop, .pull, .pull, .pull, .complete (['d'], ['1']), .complete (['e'], ['1']), .complete (['n'], ['1']), .deliver,
   .pop, .pop, .pop, .pull, .pull, .complete (['e'], ['2']), .deliver, .pop, .complete (['n'], ['2']), .deliver, .pop]
/-- answers come together -/
def together : List (REvent Sp) :=
  [.pop, .pull, .pull, .pull, .complete (['d'], ['1']), .complete (['e'], ['1']), .complete (['n'], ['1']), .deliver,
   .pop, .pop, .pop, .pull, .pull, .complete (['e'], ['2']), .complete (['n'], ['2']), .deliver, .pop, .pop, .pull,
   .complete (['n'], ['1']), .deliver, .pop]

def pj : Str := ['p']
/-- every package is a folder with one file, which tells the version -/
def pk : Pkgs Pk where
  content x p := if p = [] then some .dir else if p = [pj] then some (.file [UInt8.ofNat x.2]) else none
  scripts _ := false
  bins _ := []

def mark (c : Option Char) : Char := match c with
  | none => '0'
  | some c => if c = '/' ∨ c = '@' then '0' else c
/-- the digits: made from the first and the last character -/
def v : Iso.Env := ⟨fun s => [mark s.head?, mark s.getLast?, '0', '0', '0', '0', '0', '0'], [['/'], ['w']]⟩
def lv : LockView Pk Sp Nat Nat := ⟨fun p => p.1, fun p => .npm p.2 [] none, fun s => s.2⟩
def disk : Disk Nat Nat := ⟨fun _ => none, none⟩

def sSlow : St := final env none root slow
def sTogether : St := final env none root together

theorem slow_reach : RReach env none root sSlow := final_reach (by decide +kernel)
theorem slow_done : sSlow.done = true := by decide +kernel

theorem lookup_mem {α β : Type} [BEq α] [LawfulBEq α] {a : α} {b : β} : ∀ {l : List (α × β)}, l.lookup a = some b → (a, b) ∈ l := by
  intro l
  induction l with
  | nil => intro h; cases h
  | cons x l ih =>
    obtain ⟨k, w⟩ := x
    intro h
    simp only [List.lookup] at h
    split at h
    · rename_i hk
      cases h
      rw [eq_of_beq hk]
      exact List.mem_cons_self
    · exact List.mem_cons_of_mem _ (ih h)

theorem known {x : Pk} {mx : Manifest Str} (h : KnownPackage env none x mx) :
    (x = (['d'], 1) ∧ mx = { deps := [(['e'], ['2']), (['n'], ['2'])] }) ∨ (x = (['e'], 1) ∧ mx = {}) ∨
    (x = (['e'], 2) ∧ mx = { deps := [(['n'], ['1'])] }) ∨ (x = (['n'], 1) ∧ mx = {}) ∨ (x = (['n'], 2) ∧ mx = {}) := by
  rcases h with ⟨spec, h⟩ | ⟨l, π, ent, h, _⟩
  · simp only [env, mkEnv] at h
    obtain ⟨r, h1, h2⟩ := Option.map_eq_some_iff.1 h
    have := lookup_mem h1
    simp only [Prod.mk.injEq] at h2
    obtain ⟨rfl, rfl⟩ := h2
    simp only [table, List.mem_cons, Prod.mk.injEq, List.not_mem_nil, or_false] at this
    rcases this with ⟨rfl, rfl⟩ | ⟨rfl, rfl⟩ | ⟨rfl, rfl⟩ | ⟨rfl, rfl⟩ | ⟨rfl, rfl⟩
    · exact .inl ⟨rfl, rfl⟩
    · exact .inr (.inl ⟨rfl, rfl⟩)
    · exact .inr (.inr (.inl ⟨rfl, rfl⟩))
    · exact .inr (.inr (.inr (.inl ⟨rfl, rfl⟩)))
    · exact .inr (.inr (.inr (.inr ⟨rfl, rfl⟩)))
  · cases h

theorem plainD : PlainName ['d'] := ⟨.inl (by decide), by decide, by decide, by decide, (by intro s h; cases h), by decide⟩
theorem plainE : PlainName ['e'] := ⟨.inl (by decide), by decide, by decide, by decide, (by intro s h; cases h), by decide⟩
theorem plainN : PlainName ['n'] := ⟨.inl (by decide), by decide, by decide, by decide, (by intro s h; cases h), by decide⟩

theorem content_nm (x : Pk) (r : Loc) : pk.content x (nmWord :: r) = none := by
  have : nmWord :: r ≠ [pj] := by intro h; cases h
  simp [pk, this]

theorem plain : Plain env none man pk where
  project := by
    refine ⟨by unfold Manifest.Proper; decide, fun n raw ty h => ?_⟩
    have := requires_deps h
    simp only [List.mem_cons, Prod.mk.injEq, List.not_mem_nil, or_false] at this
    rcases this with ⟨rfl, _⟩ | ⟨rfl, _⟩ | ⟨rfl, _⟩
    · exact plainD
    · exact plainE
    · exact plainN
  packages := by
    intro x mx h
    refine ⟨?_, ?_, rfl, content_nm x⟩
    · rcases known h with ⟨_, rfl⟩ | ⟨_, rfl⟩ | ⟨_, rfl⟩ | ⟨_, rfl⟩ | ⟨_, rfl⟩ <;> (unfold Manifest.Proper; decide)
    · intro n raw ty hq
      rcases known h with ⟨_, rfl⟩ | ⟨_, rfl⟩ | ⟨_, rfl⟩ | ⟨_, rfl⟩ | ⟨_, rfl⟩
      · have := requires_deps hq
        simp only [List.mem_cons, Prod.mk.injEq, List.not_mem_nil, or_false] at this
        rcases this with ⟨rfl, _⟩ | ⟨rfl, _⟩
        · exact plainE
        · exact plainN
      · cases requires_deps hq
      · have := requires_deps hq
        simp only [List.mem_cons, Prod.mk.injEq, List.not_mem_nil, or_false] at this
        rw [this.1]
        exact plainN
      · cases requires_deps hq
      · cases requires_deps hq

theorem folders (x : Pk) (a b : Loc) (hb : b ≠ []) (h : pk.content x (a ++ b) ≠ none) : pk.content x a = some .dir := by
  by_cases ha : a = []
  · rw [ha]; rfl
  · exfalso
    apply h
    have h1 : a ++ b ≠ [] := by simp [ha]
    have h2 : a ++ b ≠ [pj] := by
      intro h'
      have := congrArg List.length h'
      have l1 := List.length_pos_of_ne_nil ha
      have l2 := List.length_pos_of_ne_nil hb
      simp at this
      omega
    simp [pk, h1, h2]

theorem mark_ok (c : Option Char) : mark c ≠ '/' ∧ mark c ≠ '@' := by
  unfold mark
  split
  · decide
  · split
    · decide
    · rename_i h
      exact ⟨fun h1 => h (.inl h1), fun h1 => h (.inr h1)⟩

theorem plainStore : PlainStore env none pk v sSlow.graph where
  noLinks := by
    intro x mx r text _ h
    simp only [pk] at h
    split at h
    · cases h
    · split at h <;> cases h
  folders := fun x _ a b _ => folders x a b
  absolute := rfl
  digits := by
    intro s
    have h1 := mark_ok s.head?
    have h2 := mark_ok s.getLast?
    refine ⟨rfl, ?_, ?_⟩
    · simp only [v, List.mem_cons, List.not_mem_nil, or_false, not_or]
      exact ⟨h1.1.symm, h2.1.symm, by decide, by decide, by decide, by decide, by decide, by decide⟩
    · simp only [v, List.mem_cons, List.not_mem_nil, or_false, not_or]
      exact ⟨h1.2.symm, h2.2.symm, by decide, by decide, by decide, by decide, by decide, by decide⟩
  apart := by
    have hg := (slow_reach.sinv ⟨_, _, _, root_ok⟩).pinv.ginv
    have hlen : sSlow.graph.nodes.length = 6 := by decide +kernel
    have hd : ∀ i < 6, ∀ j < 6, v.hash (joinPath (sSlow.graph.nodePath i)) = v.hash (joinPath (sSlow.graph.nodePath j)) → i = j := by decide +kernel
    intro i j π ρ _ _ h1 h2 h
    obtain ⟨⟨x, hx⟩, e1⟩ := (locatedAt_iff hg.folderTree hg.ord).1 h1
    obtain ⟨⟨y, hy⟩, e2⟩ := (locatedAt_iff hg.folderTree hg.ord).1 h2
    have l1 := lt_of_get hx
    have l2 := lt_of_get hy
    rw [hlen] at l1 l2
    subst e1 e2
    exact hd i l1 j l2 h

/-- installed by the isolated linker, the project works -/
example : ∃ y, Iso.install pk v sSlow.graph [5, 4, 3, 2, 1, 0] disk = some y ∧ ProjectWorks env none pk v y.tree man :=
  C80_isolated root_ok slow_reach slow_done plain plainStore disk ⟨rfl, .inl fun _ => rfl⟩ _ (by unfold Iso.Order; decide +kernel)

/-- a folder that holds a package with this version's file -/
theorem holds_version {t : Tree} {q : Loc} {x : Pk} {k : Nat} (h : HoldsPackage pk t q x) (hq : t (q ++ [pj]) = some (.file [UInt8.ofNat k])) :
    UInt8.ofNat x.2 = UInt8.ofNat k := by
  have := h.2 [pj] (by decide)
  rw [hq] at this
  simp only [pk] at this
  simpa using this.symm

theorem meets_spec {x : Pk} {mx : Manifest Str} {n raw : Str} (h : Meets env x (n, raw)) (hk : KnownPackage env none x mx) :
    x.1 = n ∧ (raw = ['1'] → x.2 = 1) ∧ (raw = ['2'] → x.2 = 2) := by
  rcases h with h | ⟨m', h⟩
  · simp only [env, mkEnv, ExL.sat, Bool.and_eq_true, beq_iff_eq, Bool.or_eq_true] at h
    obtain ⟨h1, h2⟩ := h
    refine ⟨h1, fun e => ?_, fun e => ?_⟩
    · subst e
      simpa using h2
    · subst e
      simpa using h2
  · simp only [env, mkEnv] at h
    obtain ⟨r, h1, h2⟩ := Option.map_eq_some_iff.1 h
    have := lookup_mem h1
    simp only [Prod.mk.injEq] at h2
    obtain ⟨rfl, rfl⟩ := h2
    simp only [table, List.mem_cons, Prod.mk.injEq, List.not_mem_nil, or_false] at this
    refine ⟨rfl, fun e => ?_, fun e => ?_⟩ <;> subst e <;> simp at this <;> aesop

/-! answers that come together: the same project works with the hoisted linker -/

def roundOk (s : St) : REvent Sp → Bool
  | .deliver => s.chan.isEmpty && s.active.isEmpty
  | _ => true

/-- run a schedule, checking that every chunk contains all outstanding responses -/
def roundRun : List (REvent Sp) → St → Option St
  | [], s => some s
  | ev :: evs, s =>
    match rstep env none s ev with
    | some (.ok s') => if roundOk s ev then roundRun evs s' else none
    | _ => none

theorem roundRun_reach : ∀ (evs : List (REvent Sp)) {s s' : St}, RoundReach env root s → roundRun evs s = some s' → RoundReach env root s' := by
  intro evs
  induction evs with
  | nil => intro s s' h hr; cases hr; exact h
  | cons ev evs ih =>
    intro s s' h hr
    simp only [roundRun] at hr
    split at hr
    · rename_i s1 hs
      split at hr
      · rename_i hc
        refine ih (.step ev h ?_ hs) hr
        rintro rfl
        simpa [roundOk] using hc
      · cases hr
    · cases hr

theorem together_reach : ∃ s, roundRun together (rinit root) = some s ∧ s.done = true ∧ s.graph.nodes.length = 7 := by
  have h : (roundRun together (rinit root)).map (fun s => (s.done, s.graph.nodes.length)) = some (true, 7) := by decide +kernel
  obtain ⟨s, h1, h2⟩ := Option.map_eq_some_iff.1 h
  simp only [Prod.mk.injEq] at h2
  exact ⟨s, h1, h2⟩

example : ∃ s, OrderlyReach env none root s ∧ ∃ r, Hoisted.applyTree pk lv s.graph disk = some r ∧ ProjectWorks env none pk v r.1.tree man := by
  obtain ⟨s, h1, h2, _⟩ := together_reach
  have h := ((roundRun_reach together .init h1).orderly ⟨_, _, _, root_ok⟩).1
  exact ⟨s, h, C80_first_partial root_ok h h2 plain lv disk ⟨rfl, .inl fun _ => rfl⟩⟩

/-! a project without conflicts -/

theorem knownA {x : Pk} {mx : Manifest Str} (h : KnownPackage (ExL.envA 1) none x mx) :
    (x = (['e'], 1) ∧ mx = { deps := [(['n'], ['^'])] }) ∨ (x = (['n'], 1) ∧ mx = {}) := by
  rcases h with ⟨spec, h⟩ | ⟨l, π, ent, h, _⟩
  · simp only [ExL.envA, mkEnv] at h
    obtain ⟨r, h1, h2⟩ := Option.map_eq_some_iff.1 h
    have := lookup_mem h1
    simp only [Prod.mk.injEq] at h2
    obtain ⟨rfl, rfl⟩ := h2
    simp only [List.mem_cons, Prod.mk.injEq, List.not_mem_nil, or_false] at this
    rcases this with ⟨rfl, rfl⟩ | ⟨rfl, rfl⟩ | ⟨rfl, rfl⟩
    · exact .inl ⟨rfl, rfl⟩
    · exact .inr ⟨rfl, rfl⟩
    · exact .inr ⟨rfl, rfl⟩
  · cases h

theorem plainA : Plain (ExL.envA 1) none ExL.manA pk where
  project := by
    refine ⟨by unfold Manifest.Proper; decide, fun n raw ty h => ?_⟩
    have := requires_deps h
    simp only [List.mem_cons, Prod.mk.injEq, List.not_mem_nil, or_false] at this
    rcases this with ⟨rfl, _⟩ | ⟨rfl, _⟩
    · exact plainE
    · exact plainN
  packages := by
    intro x mx h
    refine ⟨?_, ?_, rfl, content_nm x⟩
    · rcases knownA h with ⟨_, rfl⟩ | ⟨_, rfl⟩ <;> (unfold Manifest.Proper; decide)
    · intro n raw ty hq
      rcases knownA h with ⟨_, rfl⟩ | ⟨_, rfl⟩
      · have := requires_deps hq
        simp only [List.mem_cons, Prod.mk.injEq, List.not_mem_nil, or_false] at this
        rw [this.1]
        exact plainN
      · cases requires_deps hq

/-- whatever the order of responses -/
example {s : St} (h : RReach (ExL.envA 1) none ExL.root s) (hd : s.done = true) :
    ∃ r, Hoisted.applyTree pk lv s.graph disk = some r ∧ ProjectWorks (ExL.envA 1) none pk v r.1.tree ExL.manA :=
  C80_agreed (nm := []) (p0 := (['p'], 0)) rfl ExL.agreedA h hd plainA lv disk ⟨rfl, .inl fun _ => rfl⟩

example : ∃ s : St, RReach (ExL.envA 1) none ExL.root s ∧ s.done = true ∧ s.graph.nodes.length = 3 :=
  ⟨final (ExL.envA 1) none ExL.root [.pop, .pull, .pull, .complete (['e'], ['^']), .complete (['n'], ['1']), .deliver, .pop, .pop],
    final_reach (by decide +kernel), by decide +kernel, by decide +kernel⟩

end ExW
open Hoisted (Disk)

/-- C80 is false of the code for the hoisted linker: the answer for n@2 arriving late, e@2 is installed where it finds n@2, and it
requires n@1; the same registry, the same project. -/
theorem C80_fails : RReach ExW.env none ExW.root ExW.sSlow ∧ ExW.sSlow.done = true ∧ Plain ExW.env none ExW.man ExW.pk ∧
    ∃ r, Hoisted.applyTree ExW.pk ExW.lv ExW.sSlow.graph ExW.disk = some r ∧ ¬ ProjectWorks ExW.env none ExW.pk ExW.v r.1.tree ExW.man := by
  refine ⟨ExW.slow_reach, ExW.slow_done, ExW.plain, ?_⟩
  have h : (Hoisted.applyTree ExW.pk ExW.lv ExW.sSlow.graph ExW.disk).map (fun r =>
      ([Iso.finds ExW.v r.1.tree [] ['d'], Iso.finds ExW.v r.1.tree [['d']] ['e'],
        Iso.finds ExW.v r.1.tree [['d'], nmWord, ['e']] ['n']], decide (r.1.tree [['d'], nmWord, ['n'], ExW.pj] = some (.file [2])))) =
      some ([some [['d']], some [['d'], nmWord, ['e']], some [['d'], nmWord, ['n']]], true) := by decide +kernel
  obtain ⟨r, h1, h2⟩ := Option.map_eq_some_iff.1 h
  refine ⟨r, h1, ?_⟩
  simp only [Prod.mk.injEq, List.cons.injEq, and_true, decide_eq_true_eq] at h2
  obtain ⟨⟨f1, f2, f3⟩, f4⟩ := h2
  rintro ⟨Vis, h0, hstep⟩
  obtain ⟨spec, q, x, mx, hs, hq, _, _, hm, hk, hv⟩ := hstep [] _ h0 ['d'] ['1'] .prod (.inr (.inr ⟨rfl, by decide, by decide⟩))
  cases hs
  rw [f1] at hq
  cases hq
  obtain ⟨e1, e2, _⟩ := ExW.meets_spec hm hk
  have e2 := e2 rfl
  have : mx = { deps := [(['e'], ['2']), (['n'], ['2'])] } := by
    rcases ExW.known hk with ⟨rfl, rfl⟩ | ⟨rfl, rfl⟩ | ⟨rfl, rfl⟩ | ⟨rfl, rfl⟩ | ⟨rfl, rfl⟩
    · rfl
    all_goals cases e1
  subst this
  clear hm hk e1 e2
  obtain ⟨spec, q, x, mx, hs, hq, _, _, hm, hk, hv⟩ := hstep [['d']] _ hv ['e'] ['2'] .prod (.inr (.inr ⟨rfl, by decide, by decide⟩))
  cases hs
  rw [f2] at hq
  cases hq
  obtain ⟨e1, _, e2⟩ := ExW.meets_spec hm hk
  have e2 := e2 rfl
  have : mx = { deps := [(['n'], ['1'])] } := by
    rcases ExW.known hk with ⟨rfl, rfl⟩ | ⟨rfl, rfl⟩ | ⟨rfl, rfl⟩ | ⟨rfl, rfl⟩ | ⟨rfl, rfl⟩
    · cases e1
    · cases e2
    · rfl
    all_goals cases e1
  subst this
  clear hm hk e1 e2
  obtain ⟨spec, q, x, mx, hs, hq, _, hh, hm, hk, hv⟩ := hstep [['d'], nmWord, ['e']] _ hv ['n'] ['1'] .prod (.inr (.inr ⟨rfl, by decide, by decide⟩))
  cases hs
  rw [f3] at hq
  cases hq
  have e2 := (ExW.meets_spec hm hk).2.1 rfl
  have := ExW.holds_version (k := 2) hh (by exact f4)
  rw [e2] at this
  exact absurd this (by decide)

end Works
end Oro
