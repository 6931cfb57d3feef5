import Verif.Examples.Resolver
/- Properties C01–C10, C52: the dependency resolver, under every schedule of registry responses. -/

set_option linter.unusedSectionVars false

namespace Oro
variable {N P S : Type} [DecidableEq N] [DecidableEq S]
open Graph

section
variable {env : Env N P S} {lock : Option (LockTree N P)} {root : Node N P S} {s s' : RState N P S}

/-! ## C02 -/

/-- C02. In every reachable state the "clobbered" branch has never been taken; what is installed stays where it is
(every transition keeps every package, its folder entry and its links); and two different packages never share a
location. -/
theorem C02_never_overwrites (hr : IsRoot env root) (h : RReach env lock root s) :
    s.clobbers = 0 ∧
    (∀ ev s', rstep env lock s ev = some (.ok s') → Kept s.graph s'.graph) ∧
    (∀ i j π, LocatedAt s.graph i π → LocatedAt s.graph j π → i = j) :=
  ⟨(h.sinv hr).clob, fun _ _ hs => (rstep_chain (h.sinv hr) hs).kept,
    fun _ _ _ h1 h2 => locatedAt_inj (h.sinv hr).pinv.ginv.folderTree h1 h2⟩

/-! ## C03 -/

/-- C03. In every reachable state the packages form a folder tree rooted at the project, and every package has
exactly one location. -/
theorem C03_tree (hr : IsRoot env root) (h : RReach env lock root s) :
    FolderTree s.graph ∧ ∀ i, i < s.graph.nodes.length →
      ∃ π, LocatedAt s.graph i π ∧ ∀ π', LocatedAt s.graph i π' → π' = π := by
  have hf := (h.sinv hr).pinv.ginv.folderTree
  have ho := (h.sinv hr).pinv.ginv.ord
  refine ⟨hf, fun i hi => ⟨s.graph.nodePath i, ?_, ?_⟩⟩
  · exact (locatedAt_iff hf ho).mpr ⟨⟨_, List.getElem?_eq_getElem hi⟩, rfl⟩
  · intro π' h'; exact ((locatedAt_iff hf ho).mp h').2.symm

/-! ## C04 -/

/-- C04 (links). When the resolve is done, every declared requirement is linked, by a link with that specifier and
kind; conversely every link is for a declared requirement of the package it starts from, and each package has at most
one link per name. -/
theorem C04_all_linked (hr : IsRoot env root) (h : RReach env lock root s) (hd : s.done = true) :
    (∀ i n spec ty, Declares s.graph i n spec ty →
      ∃ e, Linked s.graph i n e ∧ e.src = i ∧ e.spec = spec ∧ e.ty = ty) ∧
    (∀ e ∈ s.graph.edges, ∃ n, Linked s.graph e.src n e ∧ Declares s.graph e.src n e.spec e.ty ∧
      ∀ e' ∈ s.graph.edges, Linked s.graph e.src n e' → e' = e) := by
  have hs := h.sinv hr
  have hg := hs.pinv.ginv
  have hdone : s.q = [] ∧ s.inFlight = 0 := by
    unfold RState.done at hd
    simp only [Bool.and_eq_true, List.isEmpty_iff, beq_iff_eq] at hd; exact hd
  have hw : s.waiting = [] := List.eq_nil_of_length_eq_zero (by rw [← hs.cnt]; exact hdone.2)
  constructor
  · rintro i n spec ty ⟨nd, h1, h2⟩
    rcases hs.pinv.cover i nd n (spec, ty) h1 h2 with hq | ⟨k, hk⟩ | ⟨d, hdm, _⟩
    · rw [hdone.1] at hq; simp at hq
    · obtain ⟨e, dn, e1, e2, e3, e4⟩ := hg.depReg i nd n k h1 hk
      obtain ⟨nd', dn', f1, f2, f3, f4⟩ := hg.edgeReg k e e1
      rw [e2] at f1; rw [h1] at f1; cases f1
      rw [e3] at f2; cases f2
      rw [e4, h2] at f4; cases f4
      exact ⟨e, ⟨nd, k, h1, hk, e1⟩, e2, rfl, rfl⟩
    · rw [hw] at hdm; simp at hdm
  · intro e he
    obtain ⟨k, hk⟩ := List.getElem?_of_mem he
    obtain ⟨nd, dn, f1, f2, f3, f4⟩ := hg.edgeReg k e hk
    refine ⟨dn.name, ⟨nd, k, f1, f3, hk⟩, ⟨nd, f1, f4⟩, ?_⟩
    rintro e' _ ⟨nd', k', g1, g2, g3⟩
    rw [f1] at g1; cases g1
    rw [f3] at g2; cases g2
    rw [hk] at g3; cases g3; rfl

/-- C04 (requirements). What a package in the tree declares is exactly what its manifest requires: dev dependencies
for the project only, and dev over optional over ordinary for a repeated name.  (`hm`, `hml`: manifests are read from
JSON objects, so a section does not repeat a name.) -/
theorem C04_declares {nm : N} {pk : P} {m : Manifest N} (hr : Node.new env.parse nm pk m true = some root) (h : RReach env lock root s) (hm : m.Proper)
    (hk : ∀ p m, KnownPackage env lock p m → m.Proper) :
    (∀ n spec ty, Declares s.graph 0 n spec ty ↔ ∃ raw, Requires m true n raw ty ∧ env.parse n raw = some spec) ∧
    (∀ (i : Nat) (nd : Node N P S), s.graph.nodes[i]? = some nd → i ≠ 0 → ∃ m', KnownPackage env lock nd.pkg m' ∧
      ∀ n spec ty, Declares s.graph i n spec ty ↔ ∃ raw, Requires m' false n raw ty ∧ env.parse n raw = some spec) := by
  have hr' : IsRoot env root := ⟨nm, pk, m, hr⟩
  constructor
  · intro n spec ty
    obtain ⟨nd, h1, h2, _⟩ := h.root_reqs hr'
    rw [← mkReqs_spec hm (nodeNew_spec hr).2.2.2.2.2]
    constructor
    · rintro ⟨x, hx, hxr⟩; rw [h1] at hx; cases hx; rw [← h2]; exact hxr
    · intro hx; exact ⟨nd, h1, by rw [h2]; exact hx⟩
  · intro i nd hi h0
    obtain ⟨m', k1, k2⟩ := h.prov hr' i nd hi h0
    refine ⟨m', k1, fun n spec ty => ?_⟩
    rw [← mkReqs_spec (hk _ _ k1) k2]
    constructor
    · rintro ⟨x, hx, hxr⟩; rw [hi] at hx; cases hx; exact hxr
    · intro hx; exact ⟨nd, hi, hx⟩

/-! ## C05 -/

/-- C05. Every link, at every moment, leads to a package that satisfies the requested specifier or is exactly the
registry's answer for it. -/
theorem C05_links_sound (hr : IsRoot env root) (h : RReach env lock root s) :
    ∀ e ∈ s.graph.edges, ∃ dn, s.graph.nodes[e.dst]? = some dn ∧
      (env.sat dn.pkg e.spec = true ∨ ∃ m, env.fetch e.spec = some (dn.pkg, m)) := by
  intro e he
  have hg := (h.sinv hr).pinv.ginv
  obtain ⟨dn, hdn⟩ : ∃ x, s.graph.nodes[e.dst]? = some x := ⟨_, List.getElem?_eq_getElem (hg.edge_lt he).2⟩
  exact ⟨dn, hdn, hg.sound e he dn hdn⟩

/-! ## C06 -/

/-- C06. The counter equals the number of unanswered requirements; so the loop ends exactly when no package is queued
and nothing is unanswered, and otherwise something can always happen (it never waits for a response nobody will
send).  A counter underflow is impossible. -/
theorem C06_counts (hr : IsRoot env root) (h : RReach env lock root s) :
    s.inFlight = s.waiting.length ∧
    (s.done = true ↔ s.q = [] ∧ s.waiting = []) ∧
    (0 < env.concurrency → s.done = false → ∃ ev r, rstep env lock s ev = some r) ∧
    (∀ ev, rstep env lock s ev ≠ some (.error .underflow)) := by
  have hs := h.sinv hr
  refine ⟨hs.cnt, ?_, fun hc hd => progress hs hc hd, ?_⟩
  · unfold RState.done
    simp only [Bool.and_eq_true, List.isEmpty_iff, beq_iff_eq, hs.cnt, List.length_eq_zero_iff]
  · intro ev hu
    have nofold : ∀ {α : Type} (f : RState N P S → α → Except ResolveErr (RState N P S))
        (I : RState N P S → List α → Prop),
        (∀ x a l, I x (a :: l) → f x a ≠ .error .underflow) →
        (∀ x a l x', I x (a :: l) → f x a = .ok x' → I x' l) →
        ∀ l x, I x l → foldE f x l ≠ .error .underflow := by
      intro α f I h1 h2 l
      induction l with
      | nil => intro x _ hx; cases hx
      | cons a l ih =>
        intro x hx hf
        simp only [foldE] at hf
        cases ha : f x a with
        | error e => rw [ha] at hf; dsimp only at hf; cases hf; exact h1 x a l hx ha
        | ok x' => rw [ha] at hf; exact ih x' (h2 x a l x' hx ha) hf
    cases ev with
    | pop =>
      simp only [rstep, popStep] at hu
      split at hu
      · cases hu
      · simp only [Option.some.injEq] at hu
        refine nofold (processReq env lock) (fun _ _ => True) ?_ (fun _ _ _ _ _ _ => trivial) _ _ trivial hu
        intro x a l _ hx
        unfold processReq at hx
        split at hx
        · cases hx
        · dsimp only at hx
          split at hx
          · cases hx
          · split at hx <;> cases hx
          · cases hx
    | pull =>
      simp only [rstep, Option.map_eq_some_iff] at hu
      obtain ⟨_, _, hu⟩ := hu; cases hu
    | complete spec =>
      simp only [rstep, Option.map_eq_some_iff] at hu
      obtain ⟨_, _, hu⟩ := hu; cases hu
    | deliver =>
      simp only [rstep, deliverStep] at hu
      split at hu
      · simp only [Option.some.injEq] at hu
        split at hu
        · cases hu
        · rename_i e hf
          cases hu
          refine nofold (deliverOne env) (fun x l => SInv env x [] ∧ x.ready = l) ?_ ?_ _ _ ⟨hs, rfl⟩ hf
          · intro x a l hI hx
            unfold deliverOne at hx
            split at hx
            · cases hx
            · dsimp only at hx
              split at hx
              · cases hx
              · rename_i deps hdeps
                rw [if_pos (hI.1.take (by rw [hI.2]; simp) hdeps).2.1] at hx
                refine nofold (serveDep env _ _) (fun _ _ => True) ?_ (fun _ _ _ _ _ _ => trivial) _ _ trivial hx
                intro y b l _ hy
                unfold serveDep at hy
                split at hy
                · cases hy
                · split at hy <;> cases hy
          · intro x a l x' hI hx
            exact ⟨hI.1.deliverOne (by rw [hI.2]; simp) hx, by rw [(deliverOne_ready hx).1, hI.2]; simp⟩
      · cases hu

/-! ## C07 -/

/-- C07. At any moment each specifier is being fetched at most once; and whenever a chunk of responses is handled,
every requirement waiting on one of them is linked afterwards. -/
theorem C07_shared_fetch (hr : IsRoot env root) (h : RReach env lock root s) :
    (s.active ++ s.ready).Nodup ∧
    (∀ s', rstep env lock s .deliver = some (.ok s') → ∀ spec ∈ s.ready, ∀ deps, s.fetches.get? spec = some deps →
      ∀ d ∈ deps, ∃ e, Linked s'.graph d.node d.name e ∧ e.spec = d.spec ∧ e.ty = d.ty) ∧
    (∀ spec, spec ∈ s.active ++ s.ready ↔ ∃ deps, s.fetches.get? spec = some deps ∧ deps ≠ []) ∧
    (∀ spec deps, s.fetches.get? spec = some deps → ∀ d ∈ deps, d.spec = spec) := by
  have hs := h.sinv hr
  refine ⟨hs.act.nodup_iff.mpr hs.fwf, ?_, ?_, ?_⟩
  · intro s' hst spec hsp deps hd d hdd
    obtain ⟨e, h1, h2, h3, _⟩ := ((deliverStep_links hs hst).1 spec hsp).2 deps hd d hdd
    exact ⟨e, h1, h2, h3⟩
  · intro spec
    rw [hs.act.mem_iff]
    constructor
    · intro hk
      cases hg : s.fetches.get? spec with
      | none => exact absurd hk ((IMap.get?_eq_none_iff _ _).mp hg)
      | some l => exact ⟨l, rfl, (hs.fok _ (IMap.mem_of_get? hg)).1⟩
    · rintro ⟨l, hg, _⟩; exact IMap.mem_keys_of_mem (IMap.mem_of_get? hg)
  · intro spec deps hd d hdd; exact (hs.fok _ (IMap.mem_of_get? hd)).2 d hdd

/-! ## C09 -/

/-- Runs from one state to another. -/
inductive RSteps (env : Env N P S) (lock : Option (LockTree N P)) : RState N P S → RState N P S → Prop
  | refl {s : RState N P S} : RSteps env lock s s
  | step {s s1 s2 : RState N P S} {ev : REvent S} : RSteps env lock s s1 → rstep env lock s1 ev = some (.ok s2) →
      RSteps env lock s s2

/-- C09. Once some unanswered requirement has a specifier the registry cannot answer, no continuation of the run ends
successfully; handling such an answer is an error. -/
theorem C09_failed_fetch (hr : IsRoot env root) (h : RReach env lock root s) {d : Dep N S} (hd : d ∈ s.waiting)
    (hf : env.fetch d.spec = none) :
    (∀ s', RSteps env lock s s' → s'.done = false) ∧
    (d.spec ∈ s.ready → ∀ s', rstep env lock s .deliver ≠ some (.ok s')) := by
  constructor
  · intro s' hst
    have key : RReach env lock root s' ∧ d ∈ s'.waiting := by
      induction hst with
      | refl => exact ⟨h, hd⟩
      | step _ hst ih =>
        refine ⟨.step _ ih.1 hst, ?_⟩
        rcases rstep_waiting (ih.1.sinv hr) hst ih.2 with hw | ⟨hsome, _⟩
        · exact hw
        · rw [hf] at hsome; cases hsome
    have hcnt := (key.1.sinv hr).cnt
    have : s'.inFlight ≠ 0 := by
      rw [hcnt]; intro h0
      rw [List.eq_nil_of_length_eq_zero h0] at key; simp at key
    simp [RState.done, this]
  · intro hsp s' hst
    have := ((deliverStep_links (h.sinv hr) hst).1 _ hsp).1
    rw [hf] at this; cases this

/-! ## C10 -/

/-- C10. A requirement `n` of the package at location `π` is answered from the lockfile with `p` exactly when, on the
way up from `π`, the nearest lockfile entry for `n` that describes a package describes `p`, and `p` satisfies the
request. -/
theorem C10_lock_nearest (hr : IsRoot env root) (h : RReach env lock root s) {l : LockTree N P} {d : Dep N S} {π : List N}
    (hloc : LocatedAt s.graph d.node π) (p : P) (ent : LockEntry N P) :
    satisfyFromLockfile env l s.graph d = some (some (p, ent)) ↔
    ∃ up down, π = up ++ down ∧ l.get? (up ++ [d.name]) = some ent ∧ ent.pkg = some (some p) ∧
      env.sat p d.spec = true ∧
      ∀ near, near ≠ [] → near <+: down → ∀ e, l.get? (up ++ near ++ [d.name]) = some e → e.pkg = some none := by
  have hs := (h.sinv hr).pinv.ginv
  have := ((locatedAt_iff hs.folderTree hs.ord).mp hloc).2
  unfold satisfyFromLockfile
  rw [lockWalk_iff, List.reverse_reverse, this]

/-! ## C52 -/

/-- C52. Every package in the tree, other than the project, is one the registry returned or a lockfile entry
describes, with the requirements of that package's own manifest. -/
theorem C52_known_packages (hr : IsRoot env root) (h : RReach env lock root s) (i : Nat) (nd : Node N P S)
    (hi : s.graph.nodes[i]? = some nd) (h0 : i ≠ 0) :
    ∃ m, KnownPackage env lock nd.pkg m ∧ mkReqs env.parse m false = some nd.reqs := h.prov hr i nd hi h0

/-! ## C01 -/

/-- C01, one placement: putting a package into the tree leaves all links loading what they were linked to, if and
only if the new entry does not come between a package inside the requirer's folder and the copy that package was
linked to. -/
theorem C01_step_iff (hr : IsRoot env root) (h : RReach env lock root s) {d : Dep N S} (hp : DepPre s.graph d)
    (hs : satisfyDependency env s.graph d = none) {p : P} {m : Manifest N} {tp : Option (List N)}
    {r : Placed N P S} (hpl : placeChild env s.graph d p m tp = some r) (hll : LinksLoad s.graph) :
    LinksLoad r.graph ↔ ¬ Shadows s.graph d := by
  have hg := (h.sinv hr).pinv.ginv
  obtain ⟨nd, t, hn, ht, h1, _, _⟩ := placeChild_eq hg hp hs hpl
  rw [h1]
  constructor
  · rintro hl ⟨e, he, hw, hld⟩
    obtain ⟨a, b⟩ := placeAt_shadow_breaks (nd := nd) hg hp hs ht he hw hld
    exact b (hl _ _ _ a)
  · intro hsh; exact placeAt_linksLoad hg hp hs hn ht hsh hll

/-- C01, in full for schedules that answer a package's requirements before starting on packages inside its folder.
Missing for the full property: other schedules, for which it is false (`C01_fails`). -/
theorem C01_orderly_partial (hr : IsRoot env root) (h : OrderlyReach env lock root s) :
    LinksLoad s.graph ∧
    (s.done = true → ∀ i n spec ty, Declares s.graph i n spec ty → ∃ e, Linked s.graph i n e ∧
      e.spec = spec ∧ NodeLoads s.graph i n e.dst) := by
  have hl := (h.oinv hr).loads
  refine ⟨hl, fun hd i n spec ty hdec => ?_⟩
  obtain ⟨e, h1, _, h3, _⟩ := (C04_all_linked hr h.toReach hd).1 i n spec ty hdec
  exact ⟨e, h1, h3, hl i n e h1⟩

/-- C01 for resolves answered entirely by the lockfile (nothing is fetched). -/
theorem C01_offline_partial (hr : IsRoot env root) (h : OfflineReach env lock root s) : LinksLoad s.graph :=
  (C01_orderly_partial hr h.orderly.1).1

/-- C01 for resolves without a lockfile in which all outstanding responses arrive before any is handled. -/
theorem C01_rounds_partial (hr : IsRoot env root) (h : RoundReach env root s) : LinksLoad s.graph :=
  (C01_orderly_partial hr (h.orderly hr).1).1

/-! ## C08 -/

/-- zero or more `pop` events -/
inductive PopSteps (env : Env N P S) (lock : Option (LockTree N P)) : RState N P S → RState N P S → Prop
  | refl {s : RState N P S} : PopSteps env lock s s
  | head {s s1 s2 : RState N P S} : rstep env lock s .pop = some (.ok s1) → PopSteps env lock s1 s2 →
      PopSteps env lock s s2

theorem PopSteps.snoc {a b c : RState N P S} (h : PopSteps env lock a b) (hs : rstep env lock b .pop = some (.ok c)) :
    PopSteps env lock a c := by
  induction h with
  | refl => exact .head hs .refl
  | head h1 _ ih => exact .head h1 (ih hs)

theorem OfflineReach.popSteps (h : OfflineReach env lock root s) : PopSteps env lock (rinit root) s := by
  induction h with
  | init => exact .refl
  | step _ hs _ ih => exact ih.snoc hs

theorem pop_only {x x1 x2 : RState N P S} {ev : REvent S} (h1 : rstep env lock x .pop = some (.ok x1))
    (h2 : rstep env lock x ev = some (.ok x2)) : x2 = x1 := by
  have hq : x.q ≠ [] := by intro hq; simp [rstep, popStep, hq] at h1
  cases ev with
  | pop => rw [h1] at h2; cases h2; rfl
  | pull => simp only [rstep, pullStep] at h2; rw [if_neg (by simp [hq])] at h2; cases h2
  | complete spec => simp only [rstep, completeStep] at h2; rw [if_neg (by simp [hq])] at h2; cases h2
  | deliver => simp only [rstep, deliverStep] at h2; rw [if_neg (by simp [hq])] at h2; cases h2

theorem done_stuck {x x1 : RState N P S} {ev : REvent S} (hx : x.done = true) :
    rstep env lock x ev ≠ some (.ok x1) := by
  intro h1
  unfold RState.done at hx
  simp only [Bool.and_eq_true, List.isEmpty_iff, beq_iff_eq] at hx
  cases ev with
  | pop => simp [rstep, popStep, hx.1] at h1
  | pull => simp only [rstep, pullStep] at h1; rw [if_neg (by simp [hx.2])] at h1; cases h1
  | complete spec => simp only [rstep, completeStep] at h1; rw [if_neg (by simp [hx.2])] at h1; cases h1
  | deliver => simp only [rstep, deliverStep] at h1; rw [if_neg (by simp [hx.2])] at h1; cases h1

/-- C08 for resolves answered entirely by the lockfile: whatever the scheduler does, a finished run ends in the same
state.  Missing: resolves that fetch, for which the property is false (`C08_fails`). -/
theorem C08_offline_partial (h : OfflineReach env lock root s) (hd : s.done = true)
    (h' : RReach env lock root s') (hd' : s'.done = true) : s' = s := by
  have key : ∀ {x : RState N P S}, RReach env lock root x → PopSteps env lock x s := by
    intro x hx
    induction hx with
    | init => exact h.popSteps
    | step ev _ hst ih =>
      cases ih with
      | refl => exact absurd hst (done_stuck hd)
      | head h1 h2 => rw [pop_only h1 hst]; exact h2
  cases key h' with
  | refl => rfl
  | head h1 _ => exact absurd h1 (done_stuck hd')

end

/-! ## Counterexamples and non-vacuity -/

section
open Ex

/-- C01 is false in general: with a registry of five package versions there is a schedule, ending successfully, after
which a package loads a copy (n@2) different from the one it was linked to (n@1). -/
theorem C01_fails : ∃ (env : E) (root : Nd) (s : St), IsRoot env root ∧ RReach env none root s ∧ s.done = true ∧
    ¬ LinksLoad s.graph := by
  refine ⟨env1, root1, final env1 root1 sched1, root1_ok, final_reach run1_ok, by decide +kernel, ?_⟩
  intro hll
  have ho := ((final_reach run1_ok).sinv root1_ok).pinv.ginv.ord
  -- package 4 is E@2 in D; its requirement n (3) was linked by edge 4 to package 3, but loads package 5
  have hlink : Linked (final env1 root1 sched1).graph 4 3 ⟨4, 3, (3, ['1']), .prod⟩ :=
    ⟨{ name := 2, pkg := (2, 2), reqs := [(3, ((3, ['1']), .prod))], parent := some 1, deps := [(3, 4)] }, 4,
      by decide +kernel, by decide +kernel, by decide +kernel⟩
  have h1 := (resolveDep_iff ho 4 3 3).mpr (hll _ _ _ hlink)
  have h2 : (final env1 root1 sched1).graph.resolveDep 4 3 = some 5 := by decide +kernel
  rw [h1] at h2; cases h2

/-- C08 is false in general: the same project and registry, two orders of responses, two different trees – one has
n@2 nested in e, the other does not. -/
theorem C08_fails : ∃ (env : E) (root : Nd) (s1 s2 : St), IsRoot env root ∧ RReach env none root s1 ∧ s1.done = true ∧
    RReach env none root s2 ∧ s2.done = true ∧
    ∃ π p, Installed s1.graph π p ∧ ∀ p', ¬ Installed s2.graph π p' := by
  refine ⟨env2, root2, final env2 root2 sched2a, final env2 root2 sched2b, root2_ok, final_reach run2a_ok,
    by decide +kernel, final_reach run2b_ok, by decide +kernel, [1, 2], (2, 2), ?_, ?_⟩
  · have hg := ((final_reach run2a_ok).sinv root2_ok).pinv.ginv
    exact ⟨2, { name := 2, pkg := (2, 2), reqs := [], parent := some 1 }, (locatedAt_iff hg.folderTree hg.ord).mpr
      ⟨⟨{ name := 2, pkg := (2, 2), reqs := [], parent := some 1 }, by decide +kernel⟩, by decide +kernel⟩,
      by decide +kernel, rfl⟩
  · rintro p' ⟨i, nd, hl, hn, _⟩
    have hg := ((final_reach run2b_ok).sinv root2_ok).pinv.ginv
    have hp := ((locatedAt_iff hg.folderTree hg.ord).mp hl).2
    have hlt : i < 3 := lt_of_get hn
    have : ∀ i < 3, (final env2 root2 sched2b).graph.nodePath i ≠ [1, 2] := by decide +kernel
    exact this i hlt hp

/-- Non-vacuity for C02–C07, C52: a finished run with nested packages, five links and shared names. -/
example : IsRoot env1 root1 ∧ RReach env1 none root1 (final env1 root1 sched1) ∧
    (final env1 root1 sched1).done = true ∧ (final env1 root1 sched1).graph.nodes.length = 6 ∧
    (final env1 root1 sched1).graph.edges.length = 6 :=
  ⟨root1_ok, final_reach run1_ok, by decide +kernel, by decide +kernel, by decide +kernel⟩

/-- Non-vacuity for the offline theorems: a project resolved from a two-entry lockfile. -/
example : ∃ s : St, OfflineReach env2 (some lock2) root2 s ∧ s.done = true ∧ s.graph.nodes.length = 3 := by
  have h : (offlineRun env2 (some lock2) 3 (rinit root2)).isSome = true := by decide +kernel
  obtain ⟨s, hs⟩ := Option.isSome_iff_exists.mp h
  have h2 : ((offlineRun env2 (some lock2) 3 (rinit root2)).map fun s => (s.done, s.graph.nodes.length)) =
    some (true, 3) := by decide +kernel
  rw [hs] at h2
  simp only [Option.map_some, Option.some.injEq, Prod.mk.injEq] at h2
  exact ⟨s, offlineRun_reach 3 .init hs, h2.1, h2.2⟩

/-- Non-vacuity for `C01_rounds_partial`. -/
example : ∃ s : St, RoundReach env2 root2 s ∧ s.done = true ∧ s.graph.nodes.length = 3 := by
  have h : (roundRun env2 sched2b (rinit root2)).isSome = true := by decide +kernel
  obtain ⟨s, hs⟩ := Option.isSome_iff_exists.mp h
  have h2 : ((roundRun env2 sched2b (rinit root2)).map fun s => (s.done, s.graph.nodes.length)) =
    some (true, 3) := by decide +kernel
  rw [hs] at h2
  simp only [Option.map_some, Option.some.injEq, Prod.mk.injEq] at h2
  exact ⟨s, roundRun_reach _ .init hs, h2.1, h2.2⟩

/-- Non-vacuity for C09: package 2 is missing from the registry and e requires it. -/
example : IsRoot env3 root2 ∧ RReach env3 none root2 (final env3 root2 [.pop, .pull]) ∧
    (⟨2, (2, ['1']), .prod, 0⟩ : Dep Nat (Nat × Str)) ∈ (final env3 root2 [.pop, .pull]).waiting ∧
    env3.fetch (2, ['1']) = none :=
  ⟨⟨0, (0, 0), { deps := [(1, ['^']), (2, ['1'])] }, by rfl⟩, final_reach (by decide +kernel), by decide +kernel,
    by decide +kernel⟩

/-- Non-vacuity for C10 and for `C01_step_iff`: an entry of the lockfile answers the project's first requirement, and
placing it is possible. -/
example : (∃ ent, satisfyFromLockfile env2 lock2 (rinit root2).graph ⟨1, (1, ['^']), .prod, 0⟩ = some (some ((1, 1), ent)))
    ∧ DepPre (rinit root2).graph ⟨1, (1, ['^']), .prod, 0⟩
    ∧ satisfyDependency env2 (rinit root2).graph ⟨1, (1, ['^']), .prod, 0⟩ = none
    ∧ (placeChild env2 (rinit root2).graph ⟨1, (1, ['^']), .prod, 0⟩ (1, 1) {} none).isSome = true :=
  ⟨⟨_, by rfl⟩, ⟨_, by rfl, by rfl, by rfl⟩, by rfl, by rfl⟩

end
end Oro
