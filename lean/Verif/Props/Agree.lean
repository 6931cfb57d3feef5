import Verif.Proofs.Agree
import Verif.Proofs.Acyclic
import Verif.Props.SameTree
/- C76: projects without version conflicts.  Also C77 (how long a resolve can take) and C08 (timing does not matter). -/

set_option linter.unusedSectionVars false

namespace Oro
variable {N P S : Type} [DecidableEq N] [DecidableEq S]
open Graph

section
variable {env : Env N P S} {lock : Option (LockTree N P)}

/-- **C77**, length of runs: each package in the tree accounts for at most one event, and each of its requirements for three
(it is taken up, its response arrives, its response is handled). So a resolve goes on forever only if the tree
grows forever. Missing: that the tree stops growing, which is false in general (`C77_fails`), and true for the projects of C75 and
C76. -/
theorem C77_bounded_partial {root : Node N P S} {evs : List (REvent S)} {s : RState N P S} (h : rrun env lock (rinit root) evs = some (.ok s)) :
    evs.length ≤ (s.graph.nodes.map fun nd => 1 + 3 * nd.reqs.length).sum := by
  obtain ⟨_, hb⟩ := rrun_bound evs (rinit root) s (by intro i hi; simp [rinit] at hi; subst hi; simp [sizes, rinit]) h
  have h1 : pending (rinit root) = cost (sizes (rinit root).graph) := by simp [pending, cost, sizes, rinit, wt]
  have h2 : cost (sizes s.graph) = (s.graph.nodes.map fun nd => 1 + 3 * nd.reqs.length).sum := by
    simp [cost, sizes, Function.comp_def]
  omega

end

section
variable {env : Env N P S} {lock : Option (LockTree N P)} {m : Manifest N} {w : N → P × Manifest N} {nm : N} {pk : P} {root : Node N P S}
  {s : RState N P S}

theorem AtTop.located {g : Graph N P S} (h : AtTop env m w g) (hg : GInv env g) {i : Nat} {nd : Node N P S} (h0 : i ≠ 0)
    (hn : g.nodes[i]? = some nd) : LocatedAt g i [nd.name] := by
  obtain ⟨rn, hrn, _⟩ := hg.root
  have := LocatedAt.inside hn (h.node i nd h0 hn).2.2.2 (.root hrn)
  simpa using this

theorem AtTop.unique {g : Graph N P S} (h : AtTop env m w g) (hg : GInv env g) {i j : Nat} {a b : Node N P S} (hi : i ≠ 0) (hj : j ≠ 0)
    (ha : g.nodes[i]? = some a) (hb : g.nodes[j]? = some b) (he : a.name = b.name) : i = j := by
  refine locatedAt_inj hg.folderTree (h.located hg hi ha) ?_
  rw [he]
  exact h.located hg hj hb

theorem AtTop.present (h : AtTop env m w s.graph) (hm : m.Proper) (ha : Agreed env lock m w) (hr : IsRoot env root)
    (hreach : RReach env lock root s) (hd : s.done = true) {n : N} (hn : Reached m w n) :
    ∃ (i : Nat) (nd : Node N P S), i ≠ 0 ∧ s.graph.nodes[i]? = some nd ∧ nd.name = n := by
  have hg := (hreach.sinv hr).pinv.ginv
  have key : ∀ {i : Nat} {nd : Node N P S} {n : N} {spec : S} {ty : DepType}, s.graph.nodes[i]? = some nd → nd.reqs.get? n = some (spec, ty) →
      ∃ (i : Nat) (nd : Node N P S), i ≠ 0 ∧ s.graph.nodes[i]? = some nd ∧ nd.name = n := by
    intro i nd n spec ty h1 h2
    obtain ⟨e, ⟨nd', k, h3, h4, h5⟩, _⟩ := (C04_all_linked hr hreach hd).1 i n spec ty ⟨nd, h1, h2⟩
    obtain ⟨e', dn, h6, h7, h8, h9⟩ := hg.depReg i nd' n k h3 h4
    rw [h5] at h6; cases h6
    refine ⟨e.dst, dn, ?_, h8, h9⟩
    obtain ⟨p, pn, n', _, q2, q3⟩ := hreach.around hr e (List.mem_of_getElem? h5)
    intro h0
    rw [h0] at q3
    obtain ⟨cn, c1, c2, _⟩ := hg.kid p pn n' 0 q2 q3
    obtain ⟨rn, hrn, hrp⟩ := hg.root
    rw [c1] at hrn; cases hrn; rw [c2] at hrp; cases hrp
  induction hn with
  | @direct n raw ty hreq =>
    obtain ⟨rn, hrn, _⟩ := hg.root
    obtain ⟨spec, hp, _⟩ := ha.fits n raw (.inl ⟨ty, hreq⟩)
    exact key hrn ((mkReqs_spec hm (h.root rn hrn) n spec ty).2 ⟨raw, hreq, hp⟩)
  | @dep k n raw ty hk hreq ih =>
    obtain ⟨i, nd, h0, hi, rfl⟩ := ih
    obtain ⟨k1, _, k3, _⟩ := h.node i nd h0 hi
    obtain ⟨spec, hp, _⟩ := ha.fits n raw (.inr ⟨_, ty, k1, hreq⟩)
    exact key hi ((mkReqs_spec (ha.reads _ k1).1 k3 n spec ty).2 ⟨raw, hreq, hp⟩)

/-- **C76**. In a project without version conflicts no event of the resolver fails, and as long as it is not done there is a next
one; only requirements that the lockfile does not answer are sent to the registry; packages are placed at the top level only, each
the one that goes by its name; when it is done they are exactly those the project needs; and what is linked is what is loaded. -/
theorem C76_flat (hr : Node.new env.parse nm pk m true = some root) (hm : m.Proper) (ha : Agreed env lock m w)
    (h : RReach env lock root s) :
    (∀ ev r, rstep env lock s ev = some r → ∃ s', r = .ok s') ∧
    (0 < env.concurrency → s.done = false → ∃ ev s', rstep env lock s ev = some (.ok s')) ∧
    (∀ d ∈ s.waiting, LockSilent lock d.name) ∧
    (∀ π p, π ≠ [] → Installed s.graph π p → ∃ n, Reached m w n ∧ π = [n] ∧ p = (w n).1) ∧
    (s.done = true → ∀ n, Reached m w n → Installed s.graph [n] (w n).1) ∧
    LinksLoad s.graph := by
  have hr' : IsRoot env root := ⟨nm, pk, m, hr⟩
  have hsi := h.sinv hr'
  have hg := hsi.pinv.ginv
  obtain ⟨ht, hq⟩ := h.atTop hr hm ha
  have hev : ∀ ev r, rstep env lock s ev = some r → ∃ s', r = .ok s' := by
    intro ev r he
    obtain ⟨s', e, _⟩ := ht.rstep hm ha hsi hq he
    exact ⟨s', e⟩
  refine ⟨hev, ?_, fun d hd => (hq d hd).1, ?_, ?_, ?_⟩
  · intro hc hd
    obtain ⟨ev, r, he⟩ := progress (lock := lock) hsi hc hd
    obtain ⟨s', rfl⟩ := hev ev r he
    exact ⟨ev, s', he⟩
  · rintro π p hne ⟨i, nd, hl, hn, rfl⟩
    have h0 : i ≠ 0 := by rintro rfl; exact hne (located_fn hg hl (.root hn))
    obtain ⟨k1, k2, _⟩ := ht.node i nd h0 hn
    exact ⟨nd.name, k1, located_fn hg hl (ht.located hg h0 hn), k2⟩
  · intro hd n hn
    obtain ⟨i, nd, h0, hi, rfl⟩ := ht.present hm ha hr' h hd hn
    exact ⟨i, nd, ht.located hg h0 hi, hi, (ht.node i nd h0 hi).2.1⟩
  · exact (h.flat (env' := env) hr' fun i j a b hi hj h1 h2 he => ht.unique hg hi hj h1 h2 he).1

theorem Reached.asked {n : N} (h : Reached m w n) : ∃ raw, AskedFor m w n raw := by
  cases h with
  | direct h => exact ⟨_, .inl ⟨_, h⟩⟩
  | dep h1 h2 => exact ⟨_, .inr ⟨_, _, h1, h2⟩⟩

/-- **C76**, adding dependencies: what was locked and is needed stays, with its version and at its place. -/
theorem C76_keeps (hr : Node.new env.parse nm pk m true = some root) (hm : m.Proper) (ha : Agreed env lock m w)
    (h : RReach env lock root s) (hd : s.done = true) {l : LockTree N P} (hl : lock = some l) {n : N} {p : P} {m' : Manifest N}
    (hn : Reached m w n) (hh : Holds l [n] p m') : Installed s.graph [n] p := by
  obtain ⟨ent, h1, h2, h3⟩ := hh
  obtain ⟨raw, hask⟩ := hn.asked
  obtain ⟨_, _, _, ⟨l', e1, ent', f1, f2, _⟩ | ⟨hs, _⟩⟩ := ha.fits n raw hask
  · rw [hl] at e1; cases e1
    rw [h1] at f1; cases f1
    rw [h2] at f2
    have : p = (w n).1 := by simpa using f2
    rw [this]
    exact (C76_flat hr hm ha h).2.2.2.2.1 hd n hn
  · have := hs l ent hl h1
    rw [h2] at this
    cases this

/-! ### how long it takes -/

theorem sum_sublist {α : Type} (f : α → Nat) {l1 l2 : List α} (h : l1.Sublist l2) : (l1.map f).sum ≤ (l2.map f).sum := by
  induction h with
  | slnil => simp
  | cons a _ ih => simp only [List.map_cons, List.sum_cons]; omega
  | cons_cons a _ ih => simp only [List.map_cons, List.sum_cons]; omega

/-- **C76**, termination: if the project needs only the packages `ns`, every run is over after a number of events that depends
on the manifests alone. -/
theorem C76_ends (hr : Node.new env.parse nm pk m true = some root) (hm : m.Proper) (ha : Agreed env lock m w) {ns : List N}
    (hns : ∀ n, Reached m w n → n ∈ ns) (evs : List (REvent S)) :
    (∀ e, rrun env lock (rinit root) evs ≠ some (.error e)) ∧
    ∀ s', rrun env lock (rinit root) evs = some (.ok s') →
      evs.length ≤ 1 + 3 * (m.deps.length + m.optDeps.length + m.devDeps.length) +
        (ns.map fun n => 1 + 3 * ((w n).2.deps.length + (w n).2.optDeps.length)).sum := by
  have hr' : IsRoot env root := ⟨nm, pk, m, hr⟩
  constructor
  · have gen : ∀ (evs : List (REvent S)) (s : RState N P S), RReach env lock root s → ∀ e, rrun env lock s evs ≠ some (.error e) := by
      intro evs
      induction evs with
      | nil => intro s _ e he; simp [rrun] at he
      | cons ev evs ih =>
        intro s hs e he
        simp only [rrun] at he
        cases hst : rstep env lock s ev with
        | none => rw [hst] at he; cases he
        | some r =>
          obtain ⟨s1, rfl⟩ := (C76_flat hr hm ha hs).1 ev r hst
          rw [hst] at he
          exact ih s1 (.step ev hs hst) e he
    exact gen evs _ .init
  · intro s' he
    have hreach := rrun_reach evs .init he
    have hg := (hreach.sinv hr').pinv.ginv
    obtain ⟨ht, _⟩ := hreach.atTop hr hm ha
    refine Nat.le_trans (C77_bounded_partial he) ?_
    obtain ⟨rn, hrn, _⟩ := hg.root
    cases hnodes : s'.graph.nodes with
    | nil => rw [hnodes] at hrn; cases hrn
    | cons a l =>
      rw [hnodes] at hrn
      simp only [List.getElem?_cons_zero, Option.some.injEq] at hrn
      subst hrn
      rw [List.map_cons, List.sum_cons]
      have hget : ∀ j, s'.graph.nodes[j + 1]? = l[j]? := by intro j; rw [hnodes]; rfl
      have h1 : a.reqs.length ≤ m.deps.length + m.optDeps.length + m.devDeps.length := by
        have := mkReqs_length (ht.root a (by rw [hnodes]; rfl))
        simpa using this
      -- the others, by name
      have h2 : l.map (fun nd => 1 + 3 * nd.reqs.length) |>.sum |> (· ≤ ((l.map (·.name)).map
          fun n => 1 + 3 * ((w n).2.deps.length + (w n).2.optDeps.length)).sum) := by
        have : ∀ x ∈ l, 1 + 3 * x.reqs.length ≤ 1 + 3 * ((w x.name).2.deps.length + (w x.name).2.optDeps.length) := by
          intro x hx
          obtain ⟨j, hj⟩ := List.getElem?_of_mem hx
          obtain ⟨_, _, k3, _⟩ := ht.node (j + 1) x (by omega) ((hget j).trans hj)
          have := mkReqs_length k3
          simp at this
          omega
        clear hnodes hget
        show _ ≤ _
        induction l with
        | nil => simp
        | cons x l ih =>
          simp only [List.map_cons, List.sum_cons]
          have := this x (by simp)
          have := ih (fun y hy => (by apply_assumption; exact List.mem_cons_of_mem _ hy))
          omega
      have h3 : (l.map (·.name)).Nodup := by
        rw [List.nodup_iff_getElem?_ne_getElem?]
        intro i j hij hj he
        rw [List.length_map] at hj
        rw [List.getElem?_map, List.getElem?_map] at he
        have hi : i < l.length := by omega
        rw [List.getElem?_eq_getElem hj, List.getElem?_eq_getElem hi] at he
        simp only [Option.map_some, Option.some.injEq] at he
        have := ht.unique hg (i := i + 1) (j := j + 1) (by omega) (by omega) ((hget i).trans (List.getElem?_eq_getElem hi))
          ((hget j).trans (List.getElem?_eq_getElem hj)) he
        omega
      have h4 : l.map (·.name) ⊆ ns := by
        intro n hn
        obtain ⟨x, hx, rfl⟩ := List.mem_map.1 hn
        obtain ⟨j, hj⟩ := List.getElem?_of_mem hx
        exact hns _ (ht.node (j + 1) x (by omega) ((hget j).trans hj)).1
      obtain ⟨l2, hp, hs⟩ := List.subperm_of_subset h3 h4
      have h5 : ((l.map (·.name)).map fun n => 1 + 3 * ((w n).2.deps.length + (w n).2.optDeps.length)).sum ≤
          (ns.map fun n => 1 + 3 * ((w n).2.deps.length + (w n).2.optDeps.length)).sum := by
        rw [← (hp.map _).sum_nat]
        exact sum_sublist _ hs
      have h2' : (l.map (fun nd => 1 + 3 * nd.reqs.length)).sum ≤ ((l.map (·.name)).map
          fun n => 1 + 3 * ((w n).2.deps.length + (w n).2.optDeps.length)).sum := h2
      omega

end

/-! ### timing -/

section
variable {P S V I : Type} [DecidableEq S]

/-- **C08** for projects without version conflicts: two runs – in any order of events, with any concurrency, and each with any
lockfile that agrees with the same choice of packages, or none – end with the same tree and write the same lockfile. Missing:
projects in which one name stands for several versions, for which it is false (`C08_fails`). -/
theorem C08_agreed_partial {env0 env1 : Env Str P S} {lock0 lock1 : Option (LockTree Str P)} {m : Manifest Str} {w : Str → P × Manifest Str}
    {nm : Str} {pk : P} {root : Node Str P S} {s0 s1 : RState Str P S} {v : LockView P S V I} {c : Codec V I}
    (hpe : env1.parse = env0.parse) (hr : Node.new env0.parse nm pk m true = some root) (hm : m.Proper)
    (ha0 : Agreed env0 lock0 m w) (ha1 : Agreed env1 lock1 m w) (hv : ∀ n, Reached m w n → ValidName n)
    (h0 : RReach env0 lock0 root s0) (hd0 : s0.done = true) (h1 : RReach env1 lock1 root s1) (hd1 : s1.done = true) :
    (∀ π p, Installed s1.graph π p ↔ Installed s0.graph π p) ∧
    ∃ l0 l1, toLockfile v s0.graph = some l0 ∧ toLockfile v s1.graph = some l1 ∧ l1.toKdl c = l0.toKdl c := by
  have hr0 : IsRoot env0 root := ⟨nm, pk, m, hr⟩
  have hr' : Node.new env1.parse nm pk m true = some root := by rw [hpe]; exact hr
  have hr1 : IsRoot env1 root := ⟨nm, pk, m, hr'⟩
  have g0 := (h0.sinv hr0).pinv.ginv
  have g1 := (h1.sinv hr1).pinv.ginv
  obtain ⟨t0, _⟩ := h0.atTop hr hm ha0
  obtain ⟨t1, _⟩ := h1.atTop hr' hm ha1
  obtain ⟨l0, hl0⟩ := toLockfile_isSome g0.folderTree v
  have hdir : ∀ {ea eb : Env Str P S} {la lb : Option (LockTree Str P)} {a b : RState Str P S}, AtTop ea m w a.graph → GInv ea a.graph →
      AtTop eb m w b.graph → GInv eb b.graph → Agreed eb lb m w → IsRoot eb root → RReach eb lb root b → b.done = true →
      ∀ {π : List Str}, (∃ i, LocatedAt a.graph i π) → ∃ j, LocatedAt b.graph j π := by
    intro ea eb la lb a b ta ga tb gb hab hrb hb hdb π ⟨i, hl⟩
    obtain ⟨nd, hn⟩ := located_node hl
    by_cases hi : i = 0
    · subst hi
      obtain ⟨rn, hrn, _⟩ := gb.root
      rw [located_fn ga hl (.root hn)]
      exact ⟨0, .root hrn⟩
    · obtain ⟨j, jn, hj0, hj, hname⟩ := tb.present hm hab hrb hb hdb (ta.node i nd hi hn).1
      rw [located_fn ga hl (ta.located ga hi hn), ← hname]
      exact ⟨j, tb.located gb hj0 hj⟩
  have := same_tree_same_lockfile (v := v) (c := c) hr0 hr1 h0 h1 hd0 hd1 (by
      intro i j nd jn π hi hj hn hl hjn hjl
      have hname : jn.name = nd.name := by
        have e1 := located_fn g0 hl (t0.located g0 hi hn)
        have e2 := located_fn g1 hjl (t1.located g1 hj hjn)
        rw [e1] at e2
        simpa using e2.symm
      obtain ⟨_, a2, a3, _⟩ := t0.node i nd hi hn
      obtain ⟨_, b2, b3, _⟩ := t1.node j jn hj hjn
      rw [hname] at b2 b3
      rw [hpe, a3] at b3
      exact ⟨b2.trans a2.symm, fun n => by rw [Option.some.inj b3]⟩)
    (by
      intro π
      exact ⟨hdir (la := lock0) t0 g0 t1 g1 ha1 hr1 h1 hd1, hdir (la := lock1) t1 g1 t0 g0 ha0 hr0 h0 hd0⟩)
    (fun i nd hi hn => hv _ (t0.node i nd hi hn).1) hl0
  obtain ⟨a, l1, b, c⟩ := this
  exact ⟨a, l0, l1, hl0, b, c⟩

end

namespace ExL

/-- the project wants e and n@1, e wants any n -/
def envA (newest : Nat) : E := mkEnv [((['e'], ['^']), 1, [(['n'], ['^'])]), ((['n'], ['1']), 1, []), ((['n'], ['^']), newest, [])]

def chosen (n : Str) : (Str × Nat) × Manifest Str := if n = ['e'] then ((['e'], 1), { deps := [(['n'], ['^'])] }) else ((n, 1), {})

/-- a lockfile with n@1 only: e is new -/
def lockN : LockTree Str (Str × Nat) := [([['n']], ⟨[['n']], some (some (['n'], 1)), {}⟩)]

def manA : Manifest Str := { deps := [(['e'], ['^']), (['n'], ['1'])] }

theorem requires_deps {deps : List (Str × Str)} {b : Bool} {n raw : Str} {ty : DepType} (h : Requires { deps := deps } b n raw ty) :
    (n, raw) ∈ deps := by
  rcases h with ⟨_, _, h⟩ | ⟨_, h, _⟩ | ⟨_, h, _⟩
  · cases h
  · cases h
  · exact h

theorem reachedA {n : Str} (h : Reached manA chosen n) : n = ['e'] ∨ n = ['n'] := by
  cases h with
  | direct h =>
    have := requires_deps h
    simp only [List.mem_cons, Prod.mk.injEq, List.not_mem_nil, or_false] at this
    rcases this with ⟨h, _⟩ | ⟨h, _⟩
    · exact .inl h
    · exact .inr h
  | @dep k _ _ _ hk h =>
    unfold chosen at h
    split at h
    · have := requires_deps h
      simp only [List.mem_cons, Prod.mk.injEq, List.not_mem_nil, or_false] at this
      exact .inr this.1
    · have := requires_deps h
      cases this

theorem askedA {n raw : Str} (h : AskedFor manA chosen n raw) :
    (n = ['e'] ∧ raw = ['^']) ∨ (n = ['n'] ∧ raw = ['1']) ∨ (n = ['n'] ∧ raw = ['^']) := by
  rcases h with ⟨ty, h⟩ | ⟨k, ty, hk, h⟩
  · have := requires_deps h
    simp only [List.mem_cons, Prod.mk.injEq, List.not_mem_nil, or_false] at this
    rcases this with h | h
    · exact .inl h
    · exact .inr (.inl h)
  · unfold chosen at h
    split at h
    · have := requires_deps h
      simp only [List.mem_cons, Prod.mk.injEq, List.not_mem_nil, or_false] at this
      exact .inr (.inr this)
    · have := requires_deps h
      cases this

theorem readsA {env : E} (he : ∀ n raw, env.parse n raw ≠ none) {n : Str} (h : Reached manA chosen n) :
    (chosen n).2.Proper ∧ ∀ d ∈ (chosen n).2.deps ++ (chosen n).2.optDeps, env.parse d.1 d.2 ≠ none := by
  refine ⟨?_, fun d _ => he _ _⟩
  rcases reachedA h with rfl | rfl
  · unfold Manifest.Proper; decide
  · unfold Manifest.Proper; decide

/-- without a lockfile, when the newest n is n@1 -/
theorem agreedA : Agreed (envA 1) none manA chosen where
  fits := by
    intro n raw h
    refine ⟨(n, raw), rfl, ?_⟩
    rcases askedA h with ⟨rfl, rfl⟩ | ⟨rfl, rfl⟩ | ⟨rfl, rfl⟩
    · exact ⟨by decide +kernel, .inr ⟨fun l ent h => (by cases h), by decide +kernel⟩⟩
    · exact ⟨by decide +kernel, .inr ⟨fun l ent h => (by cases h), by decide +kernel⟩⟩
    · exact ⟨by decide +kernel, .inr ⟨fun l ent h => (by cases h), by decide +kernel⟩⟩
  flat := by intro l π ent h; cases h
  reads := fun n h => readsA (by intro n raw h; cases h) h

/-- with the lockfile, and a newer n in the registry -/
theorem agreedN : Agreed (envA 2) (some lockN) manA chosen where
  fits := by
    intro n raw h
    refine ⟨(n, raw), rfl, ?_⟩
    rcases askedA h with ⟨rfl, rfl⟩ | ⟨rfl, rfl⟩ | ⟨rfl, rfl⟩
    · exact ⟨by decide +kernel, .inr ⟨fun l ent h h2 => (by cases h; cases h2), by decide +kernel⟩⟩
    · exact ⟨by decide +kernel, .inl ⟨lockN, rfl, _, rfl, rfl, rfl⟩⟩
    · exact ⟨by decide +kernel, .inl ⟨lockN, rfl, _, rfl, rfl, rfl⟩⟩
  flat := by
    intro l π ent h h2
    cases h
    have := IMap.mem_of_get? h2
    simp only [lockN, List.mem_cons, Prod.mk.injEq, List.not_mem_nil, or_false] at this
    obtain ⟨rfl, rfl⟩ := this
    exact .inr ⟨['n'], rfl, rfl⟩
  reads := fun n h => readsA (by intro n raw h; cases h) h

/-- so installing e next to a locked n@1, whatever happens first, gives what a fresh install gave when n@1 was the newest -/
example {s0 s1 : St} (h0 : RReach (envA 1) none root s0) (hd0 : s0.done = true) (h1 : RReach (envA 2) (some lockN) root s1)
    (hd1 : s1.done = true) : (∀ π p, Installed s1.graph π p ↔ Installed s0.graph π p) ∧
    ∃ l0 l1, toLockfile view s0.graph = some l0 ∧ toLockfile view s1.graph = some l1 ∧ l1.toKdl codec = l0.toKdl codec :=
  C08_agreed_partial (env0 := envA 1) (env1 := envA 2) (nm := []) (pk := (['p'], 0)) rfl rfl (by unfold Manifest.Proper; decide) agreedA agreedN
    (fun n hn => by
      rcases reachedA hn with rfl | rfl
      · exact .inl ⟨by decide, by decide⟩
      · exact .inl ⟨by decide, by decide⟩) h0 hd0 h1 hd1

/-- such runs exist -/
example : ∃ s : St, RReach (envA 2) (some lockN) root s ∧ s.done = true ∧ s.graph.nodes.length = 3 :=
  ⟨final (envA 2) (some lockN) root [.pop, .pop, .pull, .complete (['e'], ['^']), .deliver, .pop], final_reach (by decide +kernel),
    by decide +kernel, by decide +kernel⟩

end ExL
end Oro
