import Verif.Spec.Works
import Verif.Proofs.HoistedBins
import Verif.Props.Resolver
import Verif.Props.Hoisted
import Verif.Props.Isolated
/- Lemmas for C80: Node's lookup in a hoisted tree; trees made by the resolver can be installed. -/

set_option linter.unusedSectionVars false

namespace Oro
namespace Works
open Hoisted (Entry Tree Pkgs binName storeName metaName InstName folder_cons folder_append located_inst located_names located_prefix folder_prefix folder_inj not_inBin_way way_present inBin_bad bad_cons Bad content_head)

section lookup
variable {P S : Type} [DecidableEq S] {pk : Pkgs P} {g : Graph Str P S} {t : Tree} {v : Iso.Env}

/-- where a folder's path and another path can part -/
theorem folder_cmp : ∀ {π ρ : List Str} {x y : List Str}, (∀ n ∈ π, FolderName n) → (∀ n ∈ ρ, FolderName n) →
    folder π ++ x = folder ρ ++ y → (∃ σ, ρ = π ++ σ ∧ x = folder σ ++ y) ∨ ∃ n σ, π = ρ ++ n :: σ ∧ y = folder (n :: σ) ++ x := by
  intro π
  induction π with
  | nil => intro ρ x y _ _ h; exact .inl ⟨ρ, rfl, by simpa [folder] using h⟩
  | cons n π ih =>
    intro ρ x y hπ hρ h
    cases ρ with
    | nil => exact .inr ⟨n, π, rfl, by simpa [folder] using h.symm⟩
    | cons m ρ =>
      rw [folder_cons, folder_cons] at h
      simp only [List.cons_append, List.cons.injEq, true_and, List.append_assoc] at h
      obtain ⟨rfl, h2⟩ := Hoisted.segs_inj (hπ n (by simp)) (hρ m (by simp)) h
      rcases ih (fun k hk => hπ k (by simp [hk])) (fun k hk => hρ k (by simp [hk])) h2 with ⟨σ, rfl, rfl⟩ | ⟨k, σ, rfl, rfl⟩
      · exact .inl ⟨σ, rfl, rfl⟩
      · exact .inr ⟨k, σ, rfl, rfl⟩

/-- nothing is in a `node_modules` folder inside a scope's folder -/
theorem mid_none {π ρ : List Str} (hπ : ∀ n ∈ π, InstName n) (hρ : ∀ n ∈ ρ, InstName n) {s : Str} {y r : List Str}
    (hr : r.head? ≠ some nmWord) (h : folder π ++ nmWord :: ('@' :: s) :: nmWord :: y = folder ρ ++ r) : False := by
  rcases folder_cmp (fun n hn => (hπ n hn).1) (fun n hn => (hρ n hn).1) h with ⟨σ, rfl, h2⟩ | ⟨n, σ, _, h2⟩
  · cases σ with
    | nil =>
      simp only [folder, List.flatMap_nil, List.nil_append] at h2
      rw [← h2] at hr
      exact hr rfl
    | cons b σ =>
      obtain ⟨hb, _, _, _, hb2⟩ := hρ b (by simp)
      rw [folder_cons] at h2
      simp only [List.cons_append, List.cons.injEq, true_and, List.append_assoc] at h2
      rcases hb with ⟨h1, _, _, _, h5⟩ | ⟨s', t', rfl, hs, ht, _, _⟩
      · rw [nameSegs_plain h1] at h2
        simp only [List.singleton_append, List.cons.injEq] at h2
        rw [← h2.1] at h5
        simp at h5
      · rw [nameSegs_scoped hs ht] at h2
        simp only [List.cons_append, List.nil_append, List.cons.injEq] at h2
        exact hb2 s' (by rw [h2.2.1])
  · rw [h2, folder_cons] at hr
    exact hr rfl

/-- the folder of a package, below node_modules -/
def place (π : List Str) : Loc := (folder π).tail

theorem place_cons (n : Str) (π : List Str) : nmWord :: place (n :: π) = folder (n :: π) := by
  unfold place
  rw [folder_cons]
  rfl

theorem place_ne {π : List Str} (h : π ≠ []) : nmWord :: place π = folder π := by
  cases π with
  | nil => exact absurd rfl h
  | cons n π => exact place_cons n π

theorem place_snoc_nil (a : Str) : place [a] = nameSegs a := by
  unfold place
  rw [folder_cons]
  simp [folder]

theorem place_snoc {π : List Str} (h : π ≠ []) (a : Str) : place (π ++ [a]) = place π ++ nmWord :: nameSegs a := by
  have h1 := place_ne h
  have h2 := place_ne (π := π ++ [a]) (by simp)
  rw [folder_append, ← h1] at h2
  simpa [folder] using h2

/-- where Node looks first: in `node_modules` folders; then in the project's -/
def cands (p : Loc) (n : Str) : List Loc :=
  (p.inits.reverse.filter fun q => decide (q ≠ []) && decide (q.getLast? ≠ some nmWord)).map fun q => q ++ nmWord :: nameSegs n

theorem lookupPath_eq (p : Loc) (n : Str) : Iso.lookupPath p n = cands p n ++ [nameSegs n] := rfl

theorem inits_snoc (p : Loc) (x : Str) : (p ++ [x]).inits = p.inits ++ [p ++ [x]] := by
  induction p with
  | nil => rfl
  | cons a p ih => simp [ih]

theorem cands_nil (n : Str) : cands [] n = [] := rfl

theorem cands_snoc (p : Loc) (x n : Str) (hx : x ≠ nmWord) : cands (p ++ [x]) n = (p ++ x :: nmWord :: nameSegs n) :: cands p n := by
  unfold cands
  rw [inits_snoc]
  simp [hx]

theorem cands_nm (p : Loc) (n : Str) : cands (p ++ [nmWord]) n = cands p n := by
  unfold cands
  rw [inits_snoc]
  simp

/-- a path in the `node_modules` folder of a scope's folder next to the packages in `π` -/
def Mid (π : List Str) (q : Loc) : Prop := ∃ s y, nmWord :: q = folder π ++ nmWord :: ('@' :: s) :: nmWord :: y

theorem not_bad_append {π : List Str} (h : ∀ n ∈ π, InstName n) {L : List Str} (hL : ¬ Bad L) (hh : L.head? ≠ some binName) :
    ¬ Bad (folder π ++ L) := by
  induction π with
  | nil => simpa [folder] using hL
  | cons n π ih =>
    have ih := ih fun m hm => h m (by simp [hm])
    obtain ⟨hn, hb, _, _, hs⟩ := h n (by simp)
    have hf : (folder π ++ L).head? ≠ some binName := by
      cases π with
      | nil => simpa [folder] using hh
      | cons m π => rw [folder_cons, List.cons_append, List.head?_cons]; decide
    rw [folder_cons, List.cons_append, List.append_assoc]
    rcases hn with ⟨h1, h2, h3, h4, h5⟩ | ⟨s, t, rfl, hs1, ht, ht2, ht3⟩
    · rw [nameSegs_plain h1, List.singleton_append, bad_cons, bad_cons]
      rintro (⟨_, h⟩ | ⟨h, _⟩ | h)
      · simp at h; exact hb h
      · exact h3 h
      · exact ih h
    · rw [nameSegs_scoped hs1 ht]
      simp only [List.cons_append, List.nil_append, bad_cons, List.head?_cons, Option.some.injEq]
      rintro (⟨_, h⟩ | ⟨h, _⟩ | ⟨h, _⟩ | h)
      · simp [binName] at h
      · simp [nmWord] at h
      · subst h; exact hs s rfl
      · exact ih h

theorem not_bad_segs {n : Str} (hn : InstName n) : ¬ Bad (nameSegs n) ∧ (nameSegs n).head? ≠ some binName ∧ (nameSegs n).head? ≠ some nmWord := by
  have := Hoisted.not_bad_folder (π := [n]) (by simpa using hn)
  rw [folder_cons, bad_cons] at this
  simp only [folder, List.flatMap_nil, List.append_nil, not_or, not_and, forall_const] at this
  refine ⟨this.2, this.1, ?_⟩
  have := Hoisted.segs_head_ne_nm hn.1 []
  simpa using this

/-- where Node looks from the package at `π ++ [a]`: in its own `node_modules`, maybe in one in a scope's folder, and where it looks
from `π` -/
theorem cands_place {π : List Str} (hπ : ∀ n ∈ π, InstName n) {a : Str} (ha : InstName a) {n : Str} (hn : InstName n) :
    ∃ l, (∀ q ∈ l, Mid π q ∧ ¬ Hoisted.InBin q) ∧ cands (place (π ++ [a])) n = place (π ++ [a, n]) :: (l ++ cands (place π) n) := by
  have e : place (π ++ [a, n]) = place (π ++ [a]) ++ nmWord :: nameSegs n := by
    have := place_snoc (π := π ++ [a]) (by simp) n
    simpa using this
  rw [e]
  have hm : ∀ s q, nmWord :: q = folder π ++ nmWord :: ('@' :: s) :: nmWord :: nameSegs n → Mid π q ∧ ¬ Hoisted.InBin q := by
    intro s q h
    refine ⟨⟨s, _, h⟩, ?_⟩
    rw [inBin_bad, h]
    refine not_bad_append hπ ?_ (by simp [nmWord, binName])
    obtain ⟨h1, h2, _⟩ := not_bad_segs hn
    simp only [bad_cons, List.head?_cons, Option.some.injEq]
    rintro (⟨_, h⟩ | ⟨h, _⟩ | ⟨_, h⟩ | h)
    · simp [binName] at h
    · simp [nmWord] at h
    · exact h2 h
    · exact h1 h
  obtain ⟨ha1, _, _, _, ha2⟩ := ha
  by_cases h0 : π = []
  · subst h0
    rw [List.nil_append, place_snoc_nil]
    rcases ha1 with ⟨h1, _, h3, _, _⟩ | ⟨s, t, rfl, hs, ht, _, _⟩
    · rw [nameSegs_plain h1]
      refine ⟨[], by simp, ?_⟩
      exact cands_snoc [] a n h3
    · rw [nameSegs_scoped hs ht]
      refine ⟨[('@' :: s) :: nmWord :: nameSegs n], ?_, ?_⟩
      · intro q hq
        rw [List.mem_singleton] at hq
        exact hm s q (by rw [hq]; simp [folder])
      · have h1 := cands_snoc [('@' :: s)] t n (by rintro rfl; exact ha2 s rfl)
        have h2 := cands_snoc [] ('@' :: s) n (by simp [nmWord])
        simp only [List.nil_append, List.cons_append] at h1 h2 ⊢
        rw [h1, h2]
        rfl
  · rw [place_snoc h0]
    rcases ha1 with ⟨h1, _, h3, _, _⟩ | ⟨s, t, rfl, hs, ht, _, _⟩
    · rw [nameSegs_plain h1]
      refine ⟨[], by simp, ?_⟩
      have h := cands_snoc (place π ++ [nmWord]) a n h3
      rw [cands_nm] at h
      simpa using h
    · rw [nameSegs_scoped hs ht]
      refine ⟨[place π ++ nmWord :: ('@' :: s) :: nmWord :: nameSegs n], ?_, ?_⟩
      · intro q hq
        rw [List.mem_singleton] at hq
        refine hm s q ?_
        rw [hq, ← List.cons_append, place_ne h0]
      · have h1 := cands_snoc (place π ++ [nmWord, '@' :: s]) t n (by rintro rfl; exact ha2 s rfl)
        have h2 := cands_snoc (place π ++ [nmWord]) ('@' :: s) n (by simp [nmWord])
        rw [cands_nm] at h2
        simp only [List.nil_append, List.cons_append, List.append_assoc] at h1 h2 ⊢
        rw [h1, h2]

/-- Node finds nothing where there is nothing -/
theorem leadsTo_none {q : Loc} (h : t q = none) : Iso.leadsTo v t q = none := by unfold Iso.leadsTo; rw [h]
theorem leadsTo_dir {q : Loc} (h : t q = some .dir) : Iso.leadsTo v t q = some q := by unfold Iso.leadsTo; rw [h]

theorem none_of_not_expected (ht : Hoisted.Installed pk g t) {q : Loc} (hq : ¬ Hoisted.InBin q) (h : ∀ e, ¬ Hoisted.Expected pk g q e) : t q = none := by
  cases hx : t q with
  | none => rfl
  | some e => exact absurd ((ht q hq e).1 hx) (h e)

theorem mid_empty (hg : Hoisted.Installable pk g) (ht : Hoisted.Installed pk g t) {π : List Str} (hπ : ∀ n ∈ π, InstName n) {q : Loc}
    (hm : Mid π q) (hb : ¬ Hoisted.InBin q) : t q = none := by
  obtain ⟨s, y, hq⟩ := hm
  refine none_of_not_expected ht hb fun e he => ?_
  rcases he with ⟨i, nd, ρ, r, h0, hi, hl, h1, h2⟩ | ⟨rfl, rfl | ⟨i, ρ, h0, hl, z, hz⟩⟩
  · rw [hq] at h1
    exact mid_none hπ (located_inst hg hl) (content_head hg h0 hi h2) h1
  · have := congrArg List.length hq
    simp at this
    omega
  · rw [hq] at hz
    refine mid_none hπ (located_inst hg hl) (r := []) (y := y ++ z) (by simp) (by simpa using hz)

/-- at a place where a package could be there is one, or nothing -/
theorem place_empty (hg : Hoisted.Installable pk g) (ht : Hoisted.Installed pk g t) {π : List Str} (hπ : ∀ n ∈ π, InstName n) (h0 : π ≠ [])
    (h : ∀ i, ¬ LocatedAt g i π) : t (place π) = none := by
  have hp := place_ne h0
  refine none_of_not_expected ht (not_inBin_way hπ (by rw [hp])) fun e he => ?_
  rcases he with ⟨i, nd, ρ, r, h0, hi, hl, h1, h2⟩ | ⟨rfl, h1 | ⟨i, ρ, h0, hl, z, hz⟩⟩
  · rw [hp] at h1
    obtain ⟨rfl, rfl⟩ := folder_inj (x := []) (fun n hn => (hπ n hn).1) (located_names hg hl) (by simpa using h1) (by simp) (content_head hg h0 hi h2)
    exact h i hl
  · rw [h1] at hp
    cases π with
    | nil => exact h0 rfl
    | cons n π =>
      rw [folder_cons, List.cons.injEq] at hp
      exact Hoisted.segs_ne_nil (hπ n (by simp)).1 (List.append_eq_nil_iff.1 hp.2.symm).1
  · rw [hp] at hz
    obtain ⟨σ, rfl, _⟩ := folder_prefix (fun n hn => (hπ n hn).1) (located_names hg hl) hz
    obtain ⟨k, hk, _⟩ := located_prefix hl π σ rfl
    exact h k hk

/-- C80, lookup: in a hoisted tree Node finds the package its algorithm finds in the tree of packages. -/
theorem finds_loads (hg : Hoisted.Installable pk g) (ht : Hoisted.Installed pk g t) {i c : Nat} {n : Str} (hn : InstName n) (h : NodeLoads g i n c) :
    ∀ {π : List Str}, LocatedAt g i π → ∃ ρ, LocatedAt g c (ρ ++ [n]) ∧ Iso.finds v t (place π) n = some (place (ρ ++ [n])) := by
  have hfound : ∀ {j : Nat} {ρ : List Str}, LocatedAt g j ρ → ρ ≠ [] → Iso.leadsTo v t (place ρ) = some (place ρ) := by
    intro j ρ hl h0
    refine leadsTo_dir (way_present hg ht ?_ hl (by rw [place_ne h0]))
    rintro rfl
    cases hl with
    | root _ => exact h0 rfl
    | inside h1 h2 _ =>
      obtain ⟨_, hr, hrp⟩ := hg.tree.root
      rw [h1] at hr; cases hr; rw [h2] at hrp; cases hrp
  induction h with
  | @here i n c nd hi hc =>
    intro π hl
    obtain ⟨cn, hcn, hcp, rfl⟩ := hg.tree.lists i nd n c hi hc
    have hlc := LocatedAt.inside hcn hcp hl
    refine ⟨π, hlc, ?_⟩
    have hf := hfound hlc (by simp)
    unfold Iso.finds
    rw [lookupPath_eq]
    rcases List.eq_nil_or_concat π with rfl | ⟨π', a, rfl⟩
    · have hp : place [] = [] := rfl
      rw [hp, cands_nil]
      simp only [List.nil_append, List.findSome?_cons, List.findSome?_nil]
      rw [List.nil_append, place_snoc_nil] at hf
      rw [hf, place_snoc_nil]
    · rw [List.concat_eq_append] at *
      have hπ := located_inst hg hl
      obtain ⟨l, _, e⟩ := cands_place (π := π') (fun n hn => hπ n (by simp [hn])) (hπ a (by simp)) hn
      rw [e, List.cons_append, List.findSome?_cons]
      have : π' ++ [a, cn.name] = π' ++ [a] ++ [cn.name] := by simp
      rw [this, hf]
  | @up i p n c nd hi hc hp _ ih =>
    intro π hl
    obtain ⟨π', hlp, e⟩ : ∃ π', LocatedAt g p π' ∧ π = π' ++ [nd.name] := by
      cases hl with
      | root h =>
        obtain ⟨_, hr, hrp⟩ := hg.tree.root
        rw [hi] at hr; cases hr; rw [hp] at hrp; cases hrp
      | @inside _ p' π' nd' h1 h2 h3 =>
        rw [hi] at h1; cases h1
        rw [hp] at h2; cases h2
        exact ⟨π', h3, rfl⟩
    subst e
    obtain ⟨ρ, h1, h2⟩ := ih hn hlp
    refine ⟨ρ, h1, ?_⟩
    have hπ := located_inst hg hl
    have hπ' : ∀ n ∈ π', InstName n := fun n hn => hπ n (by simp [hn])
    obtain ⟨l, hl', e⟩ := cands_place hπ' (hπ nd.name (by simp)) hn
    unfold Iso.finds at h2 ⊢
    rw [lookupPath_eq] at h2 ⊢
    have hnone : t (place (π' ++ [nd.name, n])) = none := by
      refine place_empty hg ht ?_ (by simp) ?_
      · intro k hk
        rcases List.mem_append.1 hk with hk | hk
        · exact hπ' k hk
        · simp only [List.mem_cons, List.not_mem_nil, or_false] at hk
          rcases hk with rfl | rfl
          · exact hπ _ (by simp)
          · exact hn
      · intro j hj
        have : π' ++ [nd.name, n] = (π' ++ [nd.name]) ++ [n] := by simp
        rw [this] at hj
        generalize hσ : (π' ++ [nd.name]) ++ [n] = σ at hj
        cases hj with
        | root _ => simp at hσ
        | @inside _ k τ jn j1 j2 j3 =>
          obtain ⟨hσ1, hσ2⟩ := List.append_inj' hσ rfl
          subst hσ1
          have := locatedAt_inj hg.tree j3 hl
          subst this
          simp only [List.cons.injEq, and_true] at hσ2
          have hj0 : j ≠ 0 := by
            rintro rfl
            obtain ⟨_, hr, hrp⟩ := hg.tree.root
            rw [j1] at hr; cases hr; rw [j2] at hrp; cases hrp
          obtain ⟨p', pn, e1, e2, e3⟩ := hg.tree.listed j jn j1 hj0
          rw [j2] at e1; cases e1
          rw [hi] at e2; cases e2
          rw [← hσ2, hc] at e3
          cases e3
    rw [e, List.cons_append, List.findSome?_cons, leadsTo_none hnone]
    dsimp only
    rw [List.append_assoc, List.findSome?_append, List.findSome?_eq_none_iff.2, Option.none_or]
    · exact h2
    · intro q hq
      exact leadsTo_none (mid_empty hg ht hπ' (hl' q hq).1 (hl' q hq).2)

/-- C80, contents: the folder of a package in a hoisted tree holds the package. -/
theorem holds (hg : Hoisted.Installable pk g) (ht : Hoisted.Installed pk g t) {i : Nat} {nd : Node Str P S} (h0 : i ≠ 0) (hi : g.nodes[i]? = some nd)
    {π : List Str} (hl : LocatedAt g i π) : HoldsPackage pk t (place π) nd.pkg := by
  have hne : π ≠ [] := by
    rintro rfl
    obtain ⟨σ, _, _, h⟩ := Hoisted.located_snoc hl h0
    simp at h
  have hp := place_ne hne
  refine ⟨way_present hg ht h0 hl (by rw [hp]), fun r hr => ?_⟩
  have hnb : ¬ Hoisted.InBin (place π ++ r) := by
    have := Hoisted.command_not_inBin hg h0 hl hr
    have e := Hoisted.target_folder hg.tree (Hoisted.ord_of hg) h0 hl
    rw [← hp, List.cons.injEq] at e
    rw [← e.2]
    exact this
  have hhead : r.head? ≠ some nmWord := by
    intro h
    cases r with
    | nil => cases h
    | cons a r =>
      simp only [List.head?_cons, Option.some.injEq] at h
      exact hr (by simp [h])
  have key : ∀ e, t (place π ++ r) = some e ↔ pk.content nd.pkg r = some e := by
    intro e
    rw [ht _ hnb]
    constructor
    · rintro (⟨j, nj, ρ, r', j0, hj, hlj, h1, h2⟩ | ⟨rfl, h1 | ⟨j, ρ, j0, hlj, z, hz⟩⟩)
      · rw [← List.cons_append, hp] at h1
        obtain ⟨rfl, rfl⟩ := folder_inj (located_names hg hl) (located_names hg hlj) h1 hhead (content_head hg j0 hj h2)
        have := locatedAt_inj hg.tree hl hlj
        subst this
        rw [hi] at hj; cases hj
        exact h2
      · rw [(List.append_eq_nil_iff.1 h1).2]
        exact hg.dirs i nd h0 hi
      · rw [← List.cons_append, hp, List.append_assoc] at hz
        obtain ⟨σ, rfl, h2⟩ := folder_prefix (located_names hg hl) (located_names hg hlj) hz
        cases r with
        | nil => exact hg.dirs i nd h0 hi
        | cons a r =>
          cases σ with
          | nil => simp [folder] at h2
          | cons m σ =>
            rw [folder_cons] at h2
            simp only [List.cons_append, List.cons.injEq] at h2
            rw [h2.1] at hhead
            exact absurd rfl hhead
    · intro h
      exact .inl ⟨i, nd, π, r, h0, hi, hl, by rw [← List.cons_append, hp], h⟩
  cases hx : pk.content nd.pkg r with
  | some e => exact (key e).2 hx
  | none =>
    cases hy : t (place π ++ r) with
    | none => rfl
    | some e => rw [(key e).1 hy] at hx; cases hx

end lookup
end Works
end Oro
