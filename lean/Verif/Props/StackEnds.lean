import Verif.Proofs.Restrict
import Verif.Spec.StackWorks
import Verif.Props.Stack
import Verif.Props.Acyclic
/-
C88, the end: C77 in terms of the registry's documents.
-/

set_option linter.unusedSectionVars false

namespace Oro
namespace Stack
open PSpec Nassun
open Meta (CManifest CDist CVersion CPackument)
open Docs (Bundled Deprecation)

variable {V R U I : Type} [DecidableEq V] [DecidableEq R] [DecidableEq U] {k : Sys V R U I} {man : Manifest Str} {nm : Str} {p0 : Resolution V R U I}
  {root : Node Str (Resolution V R U I) (PackageSpec V R U)} {s : RState Str (Resolution V R U I) (PackageSpec V R U)}

open Classical in
/-- a registry that answers only what is sought -/
noncomputable def only (k : Sys V R U I) (man : Manifest Str) (spec : PackageSpec V R U) : Option (Resolution V R U I × Manifest Str) :=
  if ∃ n, Request k man n spec then k.fetch spec else none

theorem only_eq (hu : Usual k man) (hE : k.base.spec.alphabetic '/' = false) (hle : TotalLe k.base.world.le)
    (hr : Node.new k.env.parse nm p0 man true = some root) : ∀ s, RReach k.env none root s → ∀ i n spec ty, Declares s.graph i n spec ty →
      only k man spec = k.env.fetch spec := by
  intro s hs i n spec ty hd
  unfold only
  rw [if_pos ⟨n, (hu.requests hE hle hr hs).2 i n spec ty hd⟩]
  rfl

theorem only_some {spec : PackageSpec V R U} {x : Resolution V R U I × Manifest Str} (h : only k man spec = some x) :
    (∃ n, Request k man n spec) ∧ k.fetch spec = some x := by
  unfold only at h
  split at h
  · exact ⟨by assumption, h⟩
  · cases h

/-- what is fetched under any name is named that -/
theorem Usual.fetched_name (hu : Usual k man) (hle : TotalLe k.base.world.le) {spec : PackageSpec V R U} {r : Resolution V R U I} {mm : Manifest Str}
    (h : only k man spec = some (r, mm)) : ∃ n sc m q x cv, Sought k man n sc m q ∧ AskSpec n sc m q spec ∧ Offers k sc m q x cv ∧ IsListed k n x cv r ∧
      mm = sections cv.manifest := by
  obtain ⟨⟨n, sc, m, q, hs, ha⟩, hf⟩ := only_some h
  obtain ⟨x, cv, ho, hl, he, _⟩ := hu.fetched hle hs ha hf
  exact ⟨n, sc, m, q, x, cv, hs, ha, ho, hl, he⟩

theorem AskSpec.same {n n' : Str} {sc sc' : Option Str} {m m' : Str} {q q' : Option (VersionSpec V R)} {spec : PackageSpec V R U}
    (h : AskSpec n sc m q spec) (h' : AskSpec n' sc' m' q' spec) : n = n' ∧ sc = sc' ∧ m = m' ∧ q = q' := by
  rcases h with ⟨h1, rfl⟩ | h1 <;> rcases h' with ⟨h2, rfl⟩ | h2 <;> rw [h1] at h2 <;> cases h2 <;> exact ⟨rfl, rfl, rfl, rfl⟩

/-- the rank of a package: that of its version -/
def rankOf (rank : Str → V → Nat) : Resolution V R U I → Nat
  | .npm n x _ _ => rank n x
  | _ => 0

theorem IsListed.rank {rank : Str → V → Nat} {n : Str} {x : V} {cv : CVersion V Bundled Deprecation} {r : Resolution V R U I}
    (h : IsListed k n x cv r) : rankOf rank r = rank n x := by
  obtain ⟨_, _, rfl, _⟩ := h
  rfl

theorem acyclic (hu : Usual k man) (hE : k.base.spec.alphabetic '/' = false) (hle : TotalLe k.base.world.le) {rank : Str → V → Nat} {depth width : Nat}
    (hc : NoCycles k man rank depth width) : Acyclic (k.env.answering (only k man)) none man (rankOf rank) depth width where
  project n text spec p hin hpa hof := by
    rcases hof with ⟨mm, hf⟩ | ⟨l, _, _, hl, _⟩
    · obtain ⟨n1, sc1, m1, q1, x, cv, hs, ha, ho, hli, _⟩ := hu.fetched_name hle hf
      obtain ⟨sc, m, q, hask⟩ := hu.project _ hin
      obtain ⟨spec', h1, h2⟩ := asks_parse hE hask
      have hpa : k.parse n text = some spec := hpa
      rw [hpa] at h1; cases h1
      obtain ⟨rfl, rfl, rfl, rfl⟩ := h2.same ha
      rw [hli.rank]
      exact hc.project _ _ _ _ _ _ _ hin hask ho
    · cases hl
  package p mm n text spec p' hk hin hpa hof := by
    rcases hk with ⟨spec0, hk⟩ | ⟨l, _, _, hl, _⟩
    · obtain ⟨n0, sc0, m0, q0, x0, cv0, hs0, ha0, ho0, hli0, rfl⟩ := hu.fetched_name hle hk
      rcases hof with ⟨mm, hf⟩ | ⟨l, _, _, hl, _⟩
      · obtain ⟨n1, sc1, m1, q1, x, cv, hs, ha, ho, hli, _⟩ := hu.fetched_name hle hf
        obtain ⟨sc, m, q, hask⟩ := hu.packages _ _ _ _ _ _ hs0 ho0 _ hin
        obtain ⟨spec', h1, h2⟩ := asks_parse hE hask
        have hpa : k.parse n text = some spec := hpa
        rw [hpa] at h1; cases h1
        obtain ⟨rfl, rfl, rfl, rfl⟩ := h2.same ha
        rw [hli.rank, hli0.rank]
        exact hc.package _ _ _ _ _ _ _ _ _ _ _ _ _ hs0 ho0 hin hask ho
      · cases hl
    · cases hl
  width p mm hk := by
    rcases hk with ⟨spec0, hk⟩ | ⟨l, _, _, hl, _⟩
    · obtain ⟨n0, sc0, m0, q0, x0, cv0, hs0, ha0, ho0, hli0, rfl⟩ := hu.fetched_name hle hk
      exact hc.width _ _ _ _ _ _ hs0 ho0
    · cases hl

/-- number of events after which a resolve is over -/
def eventBound (man : Manifest Str) (depth width : Nat) : Nat :=
  (1 + 3 * (man.deps.length + man.optDeps.length + man.devDeps.length)) +
    (1 + 3 * width) * ((man.deps.length + man.optDeps.length + man.devDeps.length) * treeSize width depth)

/-- **C88**, the end. If the documents are without cycles, every resolve is over after a number of events that depends only on the project and on the depth and
width of what is required. -/
theorem C88_ends_partial (hu : Usual k man) (hE : k.base.spec.alphabetic '/' = false) (hle : TotalLe k.base.world.le) {rank : Str → V → Nat}
    {depth width : Nat} (hc : NoCycles k man rank depth width) (hr : Node.new k.env.parse nm p0 man true = some root)
    {evs : List (REvent (PackageSpec V R U))} (h : rrun k.env none (rinit root) evs = some (.ok s)) : evs.length ≤ eventBound man depth width := by
  have hr' : IsRoot k.env root := ⟨nm, p0, man, hr⟩
  have h' := rrun_answering (f := only k man) hr' (only_eq hu hE hle hr) evs .init
  rw [h] at h'
  exact C77_acyclic_partial (env := k.env.answering (only k man)) hr (acyclic hu hE hle hc) h'

/-- **C88**, total. If all that is sought can be had, and the documents are without cycles, the resolve begins; however the answers come, it never fails and it is
over after a bounded number of events; and when nothing more can happen it is done. -/
theorem C88_total_partial (hu : Usual k man) (hav : Available k man) (hE : k.base.spec.alphabetic '/' = false) (hle : TotalLe k.base.world.le)
    (hcon : 0 < k.concurrency) {rank : Str → V → Nat} {depth width : Nat} (hc : NoCycles k man rank depth width) (nm : Str) (p0 : Resolution V R U I) :
    ∃ root, Node.new k.env.parse nm p0 man true = some root ∧
      (∀ evs r, rrun k.env none (rinit root) evs = some r → ∃ s, r = .ok s ∧ evs.length ≤ eventBound man depth width ∧
        (s.done = true ∨ ∃ ev s', rrun k.env none (rinit root) (evs ++ [ev]) = some (.ok s'))) ∧
      ∃ evs s, rrun k.env none (rinit root) evs = some (.ok s) ∧ s.done = true := by
  obtain ⟨root, hr, hs⟩ := C88_succeeds_partial hu hav hE hle hcon nm p0
  have snoc : ∀ (evs : List (REvent (PackageSpec V R U))) (a : RState Str (Resolution V R U I) (PackageSpec V R U)) s ev,
      rrun k.env none a evs = some (.ok s) → rrun k.env none a (evs ++ [ev]) = rrun k.env none s [ev] := by
    intro evs
    induction evs with
    | nil => intro a s ev h; simp only [rrun, Option.some.injEq, Except.ok.injEq] at h; subst h; rfl
    | cons e evs ih =>
      intro a s ev h
      simp only [rrun, List.cons_append] at h ⊢
      cases hx : rstep k.env none a e with
      | none => rw [hx] at h; cases h
      | some r =>
        rw [hx] at h
        cases r with
        | error x => cases h
        | ok a' => exact ih a' s ev h
  have nofail : ∀ (evs : List (REvent (PackageSpec V R U))) a, RReach k.env none root a → ∀ r, rrun k.env none a evs = some r → ∃ s, r = .ok s := by
    intro evs
    induction evs with
    | nil => intro a _ r h; simp only [rrun, Option.some.injEq] at h; exact ⟨a, h.symm⟩
    | cons e evs ih =>
      intro a ha r h
      simp only [rrun] at h
      cases hx : rstep k.env none a e with
      | none => rw [hx] at h; cases h
      | some r' =>
        obtain ⟨a', rfl⟩ := (hs a ha).1 e r' hx
        rw [hx] at h
        exact ih a' (.step e ha hx) r h
  have key : ∀ evs r, rrun k.env none (rinit root) evs = some r → ∃ s, r = .ok s ∧ evs.length ≤ eventBound man depth width ∧
        (s.done = true ∨ ∃ ev s', rrun k.env none (rinit root) (evs ++ [ev]) = some (.ok s')) := by
    intro evs r h
    obtain ⟨s, rfl⟩ := nofail evs _ .init r h
    refine ⟨s, rfl, C88_ends_partial hu hE hle hc hr h, ?_⟩
    cases hd : s.done with
    | true => exact .inl rfl
    | false =>
      obtain ⟨ev, s', he⟩ := (hs s (rrun_reach evs .init h)).2 hd
      refine .inr ⟨ev, s', ?_⟩
      rw [snoc evs _ s ev h]
      simp only [rrun, he]
  refine ⟨root, hr, key, ?_⟩
  -- go on until it is done
  have run : ∀ d evs s, rrun k.env none (rinit root) evs = some (.ok s) → eventBound man depth width - evs.length = d →
      ∃ evs s, rrun k.env none (rinit root) evs = some (.ok s) ∧ s.done = true := by
    intro d
    induction d with
    | zero =>
      intro evs s h hd
      obtain ⟨s', h1, h2, h3⟩ := key evs _ h
      cases h1
      rcases h3 with h3 | ⟨ev, s', h3⟩
      · exact ⟨evs, s, h, h3⟩
      · obtain ⟨_, _, h4, _⟩ := key _ _ h3
        simp at h4
        omega
    | succ d ih =>
      intro evs s h hd
      obtain ⟨s', h1, h2, h3⟩ := key evs _ h
      cases h1
      rcases h3 with h3 | ⟨ev, s', h3⟩
      · exact ⟨evs, s, h, h3⟩
      · exact ih (evs ++ [ev]) s' h3 (by simp; omega)
  exact run _ [] (rinit root) rfl rfl

end Stack
end Oro
