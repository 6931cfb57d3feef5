import Verif.Spec.Npm
import Verif.Proofs.PackageSpec2
/-
C43: the registry follows the scope, and memoised packuments are the right ones.
-/
set_option linter.unusedSectionVars false
namespace Oro
namespace Npm
open PSpec Auth
variable {V R U : Type}

theorem stripAt_eq {s sc : Str} (h : sc.head? ≠ some '@') : stripAt s = sc ↔ s = sc ∨ s = '@' :: sc := by
  unfold stripAt
  split
  · rename_i t
    constructor
    · rintro rfl; exact .inr rfl
    · rintro (rfl | e)
      · exact absurd rfl h
      · exact (List.cons.injEq _ _ _ _ ▸ e).2
  · rename_i hn
    constructor
    · rintro rfl; exact .inl rfl
    · rintro (rfl | rfl)
      · rfl
      · exact absurd rfl (hn _)

/-- C43 (choice): the registry used for a scope is the last one named for it, with or without `@`; if there is none, the
last default registry named; if there is none either, registry.npmjs.org. -/
theorem C43_registry (ops : List RegOp) (sc : Str) (h : sc.head? ≠ some '@') :
    pickRegistry (registries ops) (some sc) = ((namedFor sc ops).or (namedDefault ops)).getD npmjs ∧
    pickRegistry (registries ops) none = (namedDefault ops).getD npmjs := by
  have hgo : ∀ (ops : List RegOp) (m : IMap (Option Str) Url),
      (ops.foldl addOp m).get? (some sc) = (namedFor sc ops).or (m.get? (some sc)) ∧
      (ops.foldl addOp m).get? none = (namedDefault ops).or (m.get? none) := by
    intro ops
    induction ops with
    | nil => intro m; exact ⟨rfl, rfl⟩
    | cons op ops ih =>
      intro m
      rw [List.foldl_cons]
      obtain ⟨i1, i2⟩ := ih (addOp m op)
      rw [i1, i2]
      cases op with
      | default u =>
        constructor
        · simp only [addOp, namedFor, Option.or_none]
          rw [IMap.get?_insert_ne _ _ (by simp)]
        · simp only [addOp, namedDefault]
          rw [IMap.get?_insert_self, Option.or_assoc]
          simp
      | forScope s u =>
        constructor
        · simp only [addOp, namedFor]
          rw [Option.or_assoc, IMap.get?_insert]
          by_cases hs : stripAt s = sc
          · have hs2 := (stripAt_eq h).1 hs
            rw [if_pos hs2, if_pos (by rw [hs])]
            rfl
          · have hs2 : ¬ (s = sc ∨ s = '@' :: sc) := fun e => hs ((stripAt_eq h).2 e)
            rw [if_neg hs2, if_neg (by simpa using fun (e : sc = stripAt s) => hs e.symm)]
            rfl
        · simp only [addOp, namedDefault, Option.or_none]
          rw [IMap.get?_insert_ne _ _ (by simp)]
  obtain ⟨h1, h2⟩ := hgo ops []
  unfold pickRegistry registries
  rw [h1, h2]
  simp

/-- C43 (specifiers): what is looked up for a parsed specifier is the package it stands for, and the scope used to choose
the registry is the one in the package's name. -/
theorem C43_parsed {E : SpecEnv V R U} {s : Str} {a : PackageSpec V R U} (h : parse E s = .ok a) {sc : Option Str} {n : Str}
    (ht : corgiTarget a = some (sc, n)) :
    Packages a n ∧ sc = scopeIn n ∧ (∀ x, sc = some x → x.head? ≠ some '@') ∧ fullTarget a = some (sc, n) := by
  have hs : Shape E a := by
    unfold parse at h
    split at h
    · rename_i e; cases h; exact packageSpec_inv e
    · cases h
    · cases h
  have hinner : ∀ m req, NpmShape E sc m req → sc = scopeIn m ∧ (∀ x, sc = some x → x.head? ≠ some '@') := by
    rintro m req ⟨k, rfl, hk, hks, hsc, _⟩
    cases sc with
    | none =>
      refine ⟨?_, fun _ h => (by cases h)⟩
      simp only [fullName]
      cases k with
      | nil => exact absurd rfl hk
      | cons c k =>
        by_cases hc : c = '@'
        · subst hc
          exact absurd List.mem_cons_self (safe_notMem hks (by decide))
        · unfold scopeIn
          split
          · rename_i e; cases e; exact absurd rfl hc
          · rfl
    | some x =>
      obtain ⟨hx, hxs⟩ := hsc x rfl
      have hsl : '/' ∉ x := safe_notMem hxs (by decide)
      refine ⟨?_, ?_⟩
      · simp only [fullName, scopeIn]
        rw [if_pos (by simp), List.takeWhile_append_of_pos (fun c hc => by simpa using fun (e : c = '/') => hsl (e ▸ hc))]
        simp
      · rintro y hy
        cases hy
        intro hhd
        exact safe_notMem hxs (c := '@') (by decide) (List.mem_of_head? hhd)
  cases a with
  | dir p => cases ht
  | git i => cases ht
  | npm sc' m req =>
    cases ht
    obtain ⟨h1, h2⟩ := hinner _ _ hs
    exact ⟨⟨_, _, .npm⟩, h1, h2, rfl⟩
  | «alias» m b =>
    obtain ⟨_, hb⟩ := hs
    cases b with
    | dir p => cases ht
    | git i => cases ht
    | «alias» _ _ => cases hb
    | npm sc' m' req =>
      cases ht
      obtain ⟨h1, h2⟩ := hinner _ _ hb
      exact ⟨⟨_, _, .alias .npm⟩, h1, h2, rfl⟩

variable {A : Type} {regs : IMap (Option Str) Url} {caching : Bool}

/-- what holds in every state -/
private structure Inv (regs : IMap (Option Str) Url) (s : St A) : Prop where
  memo : ∀ n a, s.memo.get? n = some a → ∃ l ∈ s.lookups, l.name = n ∧ (packumentUrl (pickRegistry regs l.scope) n, a) ∈ s.log
  answered : ∀ l ∈ s.lookups, ∀ a, l.phase = .answered a → (packumentUrl (pickRegistry regs l.scope) l.name, a) ∈ s.log
  done : ∀ l ∈ s.lookups, ∀ a, l.phase = .done a →
    ∃ l' ∈ s.lookups, l'.name = l.name ∧ (packumentUrl (pickRegistry regs l'.scope) l.name, a) ∈ s.log

private theorem mem_set_upd {l : List (Lookup A)} {i : Nat} {x : Lookup A} {ph : Phase A} (h : l[i]? = some x) {y : Lookup A} (hy : y ∈ l) :
    ∃ z ∈ l.set i { x with phase := ph }, z.name = y.name ∧ z.scope = y.scope := by
  obtain ⟨j, hj, rfl⟩ := List.mem_iff_getElem.1 hy
  by_cases e : j = i
  · subst e
    have hx : x = l[j] := by rw [List.getElem?_eq_getElem hj] at h; exact (Option.some.inj h).symm
    refine ⟨{ x with phase := ph }, List.mem_set hj _, ?_, ?_⟩ <;> rw [hx]
  · refine ⟨l[j], ?_, rfl, rfl⟩
    exact List.mem_iff_getElem.2 ⟨j, by simpa using hj, by rw [List.getElem_set_ne (fun e2 => e e2.symm)]⟩

private theorem inv_step {s t : St A} (h : Step regs caching s t) (hi : Inv regs s) : Inv regs t := by
  cases h with
  | ask scope name =>
    refine ⟨?_, ?_, ?_⟩
    · intro n a hn
      obtain ⟨l, hl, h2⟩ := hi.memo n a hn
      exact ⟨l, List.mem_append_left _ hl, h2⟩
    · intro l hl a ha
      rcases List.mem_append.1 hl with h | h
      · exact hi.answered l h a ha
      · rw [List.mem_singleton.1 h] at ha; cases ha
    · intro l hl a ha
      rcases List.mem_append.1 hl with h | h
      · obtain ⟨l', hl', h2⟩ := hi.done l h a ha
        exact ⟨l', List.mem_append_left _ hl', h2⟩
      · rw [List.mem_singleton.1 h] at ha; cases ha
  | hit i l a h hp hc hm =>
    refine ⟨?_, ?_, ?_⟩
    · intro n b hn
      obtain ⟨x, hx, h2, h3⟩ := hi.memo n b hn
      obtain ⟨z, hz, e1, e2⟩ := mem_set_upd (ph := .done a) h hx
      exact ⟨z, hz, e1.trans h2, e2 ▸ h3⟩
    · intro x hx b hb
      rcases List.mem_or_eq_of_mem_set hx with h2 | rfl
      · exact hi.answered x h2 b hb
      · cases hb
    · intro x hx b hb
      rcases List.mem_or_eq_of_mem_set hx with h2 | rfl
      · obtain ⟨y, hy, h3, h4⟩ := hi.done x h2 b hb
        obtain ⟨z, hz, e1, e2⟩ := mem_set_upd (ph := .done a) h hy
        exact ⟨z, hz, e1.trans h3, e2 ▸ h4⟩
      · cases hb
        obtain ⟨y, hy, h3, h4⟩ := hi.memo _ _ hm
        obtain ⟨z, hz, e1, e2⟩ := mem_set_upd (ph := .done a) h hy
        exact ⟨z, hz, e1.trans h3, e2 ▸ h4⟩
  | miss i l h hp hm =>
    refine ⟨?_, ?_, ?_⟩
    · intro n b hn
      obtain ⟨x, hx, h2, h3⟩ := hi.memo n b hn
      obtain ⟨z, hz, e1, e2⟩ := mem_set_upd (ph := .request) h hx
      exact ⟨z, hz, e1.trans h2, e2 ▸ h3⟩
    · intro x hx b hb
      rcases List.mem_or_eq_of_mem_set hx with h2 | rfl
      · exact hi.answered x h2 b hb
      · cases hb
    · intro x hx b hb
      rcases List.mem_or_eq_of_mem_set hx with h2 | rfl
      · obtain ⟨y, hy, h3, h4⟩ := hi.done x h2 b hb
        obtain ⟨z, hz, e1, e2⟩ := mem_set_upd (ph := .request) h hy
        exact ⟨z, hz, e1.trans h3, e2 ▸ h4⟩
      · cases hb
  | answer i l a h hp =>
    refine ⟨?_, ?_, ?_⟩
    · intro n b hn
      obtain ⟨x, hx, h2, h3⟩ := hi.memo n b hn
      obtain ⟨z, hz, e1, e2⟩ := mem_set_upd (ph := .answered a) h hx
      exact ⟨z, hz, e1.trans h2, List.mem_cons_of_mem _ (e2 ▸ h3)⟩
    · intro x hx b hb
      rcases List.mem_or_eq_of_mem_set hx with h2 | rfl
      · exact List.mem_cons_of_mem _ (hi.answered x h2 b hb)
      · cases hb; exact List.mem_cons_self
    · intro x hx b hb
      rcases List.mem_or_eq_of_mem_set hx with h2 | rfl
      · obtain ⟨y, hy, h3, h4⟩ := hi.done x h2 b hb
        obtain ⟨z, hz, e1, e2⟩ := mem_set_upd (ph := .answered a) h hy
        exact ⟨z, hz, e1.trans h3, List.mem_cons_of_mem _ (e2 ▸ h4)⟩
      · cases hb
  | fail i l h hp =>
    refine ⟨?_, ?_, ?_⟩
    · intro n b hn
      obtain ⟨x, hx, h2, h3⟩ := hi.memo n b hn
      obtain ⟨z, hz, e1, e2⟩ := mem_set_upd (ph := .failed) h hx
      exact ⟨z, hz, e1.trans h2, e2 ▸ h3⟩
    · intro x hx b hb
      rcases List.mem_or_eq_of_mem_set hx with h2 | rfl
      · exact hi.answered x h2 b hb
      · cases hb
    · intro x hx b hb
      rcases List.mem_or_eq_of_mem_set hx with h2 | rfl
      · obtain ⟨y, hy, h3, h4⟩ := hi.done x h2 b hb
        obtain ⟨z, hz, e1, e2⟩ := mem_set_upd (ph := .failed) h hy
        exact ⟨z, hz, e1.trans h3, e2 ▸ h4⟩
      · cases hb
  | finish i l a h hp =>
    have hl := List.mem_of_getElem? h
    have hlog := hi.answered l hl a hp
    refine ⟨?_, ?_, ?_⟩
    · intro n b hn
      have hold : s.memo.get? n = some b → ∃ x ∈ s.lookups.set i { l with phase := .done a }, x.name = n ∧
          (packumentUrl (pickRegistry regs x.scope) n, b) ∈ s.log := by
        intro hn
        obtain ⟨x, hx, h2, h3⟩ := hi.memo n b hn
        obtain ⟨z, hz, e1, e2⟩ := mem_set_upd (ph := .done a) h hx
        exact ⟨z, hz, e1.trans h2, e2 ▸ h3⟩
      cases caching with
      | false => exact hold hn
      | true =>
        simp only [if_true] at hn
        rw [IMap.get?_insert] at hn
        split at hn
        · rename_i e
          cases hn
          obtain ⟨z, hz, e1, e2⟩ := mem_set_upd (ph := .done a) h hl
          exact ⟨z, hz, by rw [e1, e], by rw [e2, e]; exact hlog⟩
        · exact hold hn
    · intro x hx b hb
      rcases List.mem_or_eq_of_mem_set hx with h2 | rfl
      · exact hi.answered x h2 b hb
      · cases hb
    · intro x hx b hb
      rcases List.mem_or_eq_of_mem_set hx with h2 | rfl
      · obtain ⟨y, hy, h3, h4⟩ := hi.done x h2 b hb
        obtain ⟨z, hz, e1, e2⟩ := mem_set_upd (ph := .done a) h hy
        exact ⟨z, hz, e1.trans h3, e2 ▸ h4⟩
      · cases hb
        obtain ⟨z, hz, e1, e2⟩ := mem_set_upd (ph := .done a) h hl
        exact ⟨z, hz, e1, by rw [e2]; exact hlog⟩

/-- C43 (memo, all interleavings): whatever is looked up, at once or one after the other, with or without memo: an answer
for a package was given by the registry of the package's scope, at that package's address. -/
theorem C43_lookup {t : St A} (h : Steps regs caching ⟨[], [], []⟩ t) (hsc : ∀ l ∈ t.lookups, l.scope = scopeIn l.name)
    {l : Lookup A} (hl : l ∈ t.lookups) {a : A} (hd : l.phase = .done a) :
    (packumentUrl (pickRegistry regs (scopeIn l.name)) l.name, a) ∈ t.log := by
  have hi : Inv regs t := by
    clear hsc hl hd l a
    induction h with
    | refl => exact ⟨fun _ _ h => (by cases h), fun _ h => (by cases h), fun _ h => (by cases h)⟩
    | tail _ hs ih => exact inv_step hs ih
  obtain ⟨y, hy, h1, h2⟩ := hi.done l hl a hd
  rw [← h1, ← hsc y hy, h1]
  exact h2

/-- C43 (memo): once a packument is in the memo, a lookup of that package that begins gets exactly it, without asking the
network. -/
theorem C43_memo {s t : St A} (h : Step regs true s t) {i : Nat} {l l' : Lookup A} (hl : s.lookups[i]? = some l) (hp : l.phase = .start)
    {a : A} (hm : s.memo.get? l.name = some a) (hl' : t.lookups[i]? = some l') (hch : l'.phase ≠ .start) :
    l'.phase = .done a ∧ t.log = s.log ∧ t.memo = s.memo := by
  have hlt : i < s.lookups.length := (List.getElem?_eq_some_iff.1 hl).1
  have hkey : ∀ (j : Nat) (x : Lookup A) (ph : Phase A), s.lookups[j]? = some x → x.phase ≠ .start →
      (s.lookups.set j { x with phase := ph })[i]? = some l' → False := by
    intro j x ph hx hxp hg
    by_cases e : j = i
    · subst e
      rw [hl] at hx; cases hx
      exact hxp hp
    · rw [List.getElem?_set_ne e, hl] at hg
      cases hg
      exact hch hp
  cases h with
  | ask scope name =>
    rw [List.getElem?_append_left hlt, hl] at hl'
    cases hl'
    exact absurd hp hch
  | hit j x b hx hxp _ hxm =>
    by_cases e : j = i
    · subst e
      rw [hl] at hx; cases hx
      rw [hm] at hxm; cases hxm
      rw [List.getElem?_set_self hlt] at hl'
      cases hl'
      exact ⟨rfl, rfl, rfl⟩
    · rw [List.getElem?_set_ne e, hl] at hl'
      cases hl'
      exact absurd hp hch
  | miss j x hx hxp hxm =>
    by_cases e : j = i
    · subst e
      rw [hl] at hx; cases hx
      rw [hm] at hxm
      rcases hxm with h | h <;> cases h
    · rw [List.getElem?_set_ne e, hl] at hl'
      cases hl'
      exact absurd hp hch
  | answer j x b hx hxp => exact absurd hl' (fun hg => hkey j x _ hx (by rw [hxp]; exact fun h => (by cases h)) hg)
  | fail j x hx hxp => exact absurd hl' (fun hg => hkey j x _ hx (by rw [hxp]; exact fun h => (by cases h)) hg)
  | finish j x b hx hxp => exact absurd hl' (fun hg => hkey j x _ hx (by rw [hxp]; exact fun h => (by cases h)) hg)

theorem upToSlash_append (pre last : Str) (h : '/' ∉ last) : upToSlash (pre ++ '/' :: last) = pre ++ ['/'] := by
  unfold upToSlash
  have e : (pre ++ '/' :: last).reverse = last.reverse ++ '/' :: pre.reverse := by simp
  rw [e, List.dropWhile_append_of_pos (by intro c hc; simpa using fun (e : c = '/') => h (by rw [← e]; exact List.mem_reverse.1 hc))]
  simp

/-- C43 (address): at a registry whose address ends with a slash, a package is asked for below that address. -/
theorem C43_address (reg : Url) (name pre : Str) (h : reg.path = pre ++ ['/']) :
    (packumentUrl reg name).path = reg.path ++ name ∧ (packumentUrl reg name).host = reg.host ∧
    (packumentUrl reg name).scheme = reg.scheme ∧ (packumentUrl reg name).port = reg.port := by
  refine ⟨?_, rfl, rfl, rfl⟩
  unfold packumentUrl
  rw [h, upToSlash_append pre [] (by simp)]

/-- C43 is false of the code for a registry whose address does not end with a slash: its last part is dropped, for every
package. -/
theorem C43_address_fails (reg : Url) (name pre last : Str) (h : reg.path = pre ++ '/' :: last) (hl : '/' ∉ last) :
    (packumentUrl reg name).path = pre ++ '/' :: name := by
  unfold packumentUrl
  rw [h, upToSlash_append pre last hl]
  simp

/-- the hypotheses are met: two lookups of the scoped package `@s/p` at once, the second answered from the memo after the
first -/
example : ∃ t : St Nat, Steps (registries [.forScope ['@', 's'] ⟨[], none, none, ['/', 'x', '/'], []⟩]) true ⟨[], [], []⟩ t ∧
    (∀ l ∈ t.lookups, l.scope = scopeIn l.name) ∧ t.lookups.map (·.name) = [['@', 's', '/', 'p'], ['@', 's', '/', 'p']] ∧
    t.log = [(⟨[], none, none, ['/', 'x', '/', '@', 's', '/', 'p'], []⟩, 7)] := by
  have s1 := Steps.tail (regs := registries [.forScope ['@', 's'] ⟨[], none, none, ['/', 'x', '/'], []⟩]) (caching := true)
    (.refl (⟨[], [], []⟩ : St Nat)) (.ask _ (some ['s']) ['@', 's', '/', 'p'])
  have s2 := Steps.tail s1 (.ask _ (some ['s']) ['@', 's', '/', 'p'])
  have s3 := Steps.tail s2 (.miss _ 0 _ rfl rfl (.inr rfl))
  have s4 := Steps.tail s3 (.answer _ 0 _ 7 rfl rfl)
  have s5 := Steps.tail s4 (.finish _ 0 _ 7 rfl rfl)
  have s6 := Steps.tail s5 (.hit _ 1 _ 7 rfl rfl rfl (by decide))
  refine ⟨_, s6, ?_, by decide, by decide⟩
  intro l hl
  simp only [List.nil_append, List.cons_append, List.set_cons_zero, List.set_cons_succ, List.mem_cons, List.not_mem_nil, or_false] at hl
  rcases hl with rfl | rfl <;> decide

end Npm
end Oro
