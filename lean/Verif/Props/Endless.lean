import Verif.Props.Resolver
/- C09: why a resolve can fail.  C77: a resolve that never ends. -/

set_option linter.unusedSectionVars false

namespace Oro
variable {N P S : Type} [DecidableEq N] [DecidableEq S]
open Graph

section
variable {env : Env N P S} {lock : Option (LockTree N P)} {root : Node N P S} {s : RState N P S}

/-- a loop with early exit that fails, fails in some step -/
theorem foldE_error {σ α ε : Type} {f : σ → α → Except ε σ} {I : σ → List α → Prop} {e : ε}
    (hstep : ∀ s a l s', I s (a :: l) → f s a = .ok s' → I s' l) : ∀ l s, I s l → foldE f s l = .error e →
    ∃ s' a l', I s' (a :: l') ∧ f s' a = .error e := by
  intro l
  induction l with
  | nil => intro s _ h; cases h
  | cons a l ih =>
    intro s hi h
    simp only [foldE] at h
    cases hf : f s a with
    | error e' => rw [hf] at h; cases h; exact ⟨s, a, l, hi, hf⟩
    | ok s' => rw [hf] at h; exact ih s' (hstep s a l s' hi hf) h

theorem lockWalk_error {l : LockTree N P} {name : N} {spec : S} (rp : List N) (h : lockWalk env l name spec rp = none) :
    ∃ π ent, l.get? π = some ent ∧ ent.pkg = none := by
  have hp : ∀ rp, lockProbe env l name spec rp = some none → ∃ π ent, l.get? π = some ent ∧ ent.pkg = none := by
    intro rp h
    unfold lockProbe at h
    split at h
    · cases h
    · rename_i ent he
      split at h
      · rename_i hpk; exact ⟨_, ent, he, hpk⟩
      · cases h
      · split at h <;> cases h
  induction rp with
  | nil =>
    rw [lockWalk] at h
    cases hq : lockProbe env l name spec [] with
    | none => rw [hq] at h; cases h
    | some r => rw [hq] at h; simp only [Option.getD_some] at h; subst h; exact hp _ hq
  | cons x r ih =>
    rw [lockWalk] at h
    cases hq : lockProbe env l name spec (x :: r) with
    | none => rw [hq] at h; exact ih h
    | some r => rw [hq] at h; dsimp only at h; subst h; exact hp _ hq

theorem placeChild_none {g : Graph N P S} {d : Dep N S} {p : P} {m : Manifest N} {tp : Option (List N)}
    (h : placeChild env g d p m tp = none) : mkReqs env.parse m false = none := by
  unfold placeChild at h
  split at h
  · rename_i hn
    unfold Node.new at hn
    cases hq : mkReqs env.parse m false with
    | none => rfl
    | some r => rw [hq] at hn; cases hn
  · cases h

/-- Why a resolve failed. -/
inductive Because (env : Env N P S) (lock : Option (LockTree N P)) (s : RState N P S) : ResolveErr → Prop
  /-- the registry did not answer a request that was made -/
  | noAnswer {d : Dep N S} : d ∈ s.waiting → env.fetch d.spec = none → Because env lock s .fetchFailed
  /-- a package that was answered to a request that was made has a requirement that cannot be read -/
  | unreadable {d : Dep N S} {p : P} {m : Manifest N} {n : N} {raw : Str} : d ∈ s.waiting → env.fetch d.spec = some (p, m) →
      (n, raw) ∈ m.deps ++ m.optDeps → env.parse n raw = none → Because env lock s .badManifest
  /-- an entry of the lockfile has a requirement that cannot be read -/
  | unreadableEntry {l : LockTree N P} {π : List N} {ent : LockEntry N P} {p : P} {n : N} {raw : Str} : lock = some l → l.get? π = some ent →
      ent.pkg = some (some p) → (n, raw) ∈ ent.manifest.deps ++ ent.manifest.optDeps → env.parse n raw = none →
      Because env lock s .badManifest
  /-- an entry of the lockfile makes no sense -/
  | badEntry {l : LockTree N P} {π : List N} {ent : LockEntry N P} : lock = some l → l.get? π = some ent → ent.pkg = none →
      Because env lock s .lockEntry

theorem mkReqs_none {parse : N → Str → Option S} {m : Manifest N} (h : mkReqs parse m false = none) :
    ∃ n raw, (n, raw) ∈ m.deps ++ m.optDeps ∧ parse n raw = none := by
  have gen : ∀ (l : List ((N × Str) × DepType)) (acc : IMap N (S × DepType)), reqFold parse (some acc) l = none →
      ∃ d ∈ l, parse d.1.1 d.1.2 = none := by
    intro l
    induction l with
    | nil => intro acc h; cases h
    | cons d l ih =>
      intro acc h
      simp only [reqFold, List.foldl_cons] at h
      cases hp : parse d.1.1 d.1.2 with
      | none => exact ⟨d, by simp, hp⟩
      | some spec =>
        rw [hp] at h
        obtain ⟨x, hx, hy⟩ := ih _ h
        exact ⟨x, List.mem_cons_of_mem _ hx, hy⟩
  obtain ⟨d, hd, hp⟩ := gen _ _ h
  simp only [Bool.false_eq_true, if_false, List.append_nil, List.mem_append, List.mem_map] at hd
  rcases hd with ⟨x, hx, rfl⟩ | ⟨x, hx, rfl⟩
  · exact ⟨x.1, x.2, List.mem_append_left _ hx, hp⟩
  · exact ⟨x.1, x.2, List.mem_append_right _ hx, hp⟩

/-- **C09**, the converse: a resolve fails only because the registry did not answer a request, a package has an unreadable
requirement, or an entry of the lockfile makes no sense. -/
theorem C09_why (hr : IsRoot env root) (h : RReach env lock root s) {ev : REvent S} {e : ResolveErr}
    (he : rstep env lock s ev = some (.error e)) : Because env lock s e := by
  have hs := h.sinv hr
  cases ev with
  | pop =>
    simp only [rstep, popStep] at he
    split at he
    · cases he
    · simp only [Option.some.injEq] at he
      obtain ⟨x, d, _, _, hx⟩ := foldE_error (I := fun _ _ => True) (fun _ _ _ _ _ _ => trivial) _ _ trivial he
      unfold processReq at hx
      split at hx
      · cases hx
      · dsimp only at hx
        split at hx
        · rename_i hv
          cases hx
          split at hv
          · cases hv
          · rename_i l
            obtain ⟨π, ent, h1, h2⟩ := lockWalk_error _ hv
            exact .badEntry rfl h1 h2
        · rename_i p ent hv
          split at hx
          · rename_i hpl
            cases hx
            split at hv
            · cases hv
            · rename_i l
              obtain ⟨pre, _, _, g1, g2, _⟩ := (lockWalk_iff _).1 hv
              obtain ⟨n, raw, a, b⟩ := mkReqs_none (placeChild_none hpl)
              exact .unreadableEntry rfl g1 g2 a b
          · cases hx
        · cases hx
  | pull =>
    simp only [rstep, Option.map_eq_some_iff] at he
    obtain ⟨_, _, hu⟩ := he; cases hu
  | complete spec =>
    simp only [rstep, Option.map_eq_some_iff] at he
    obtain ⟨_, _, hu⟩ := he; cases hu
  | deliver =>
    have hnu := (C06_counts hr h).2.2.2 .deliver
    have he0 := he
    simp only [rstep, deliverStep] at he
    split at he
    · simp only [Option.some.injEq] at he
      split at he
      · cases he
      · rename_i e' hf
        cases he
        obtain ⟨x, spec, l, hI, hx⟩ := foldE_error (I := fun x l => l ⊆ s.ready)
          (fun _ a l _ hI _ => fun y hy => hI (List.mem_cons_of_mem _ hy)) _ _ (fun _ h => h) hf
        obtain ⟨d0, hw0, hspec0⟩ : ∃ d0 ∈ s.waiting, d0.spec = spec := by
          have hk : spec ∈ s.fetches.keys := hs.act.mem_iff.mp (List.mem_append_right _ (hI (by simp)))
          obtain ⟨deps, hfe⟩ : ∃ deps, s.fetches.get? spec = some deps := by
            cases hx : s.fetches.get? spec with
            | none => exact absurd hk ((IMap.get?_eq_none_iff _ _).mp hx)
            | some l => exact ⟨l, rfl⟩
          have hmem := IMap.mem_of_get? hfe
          obtain ⟨hne, hspec⟩ := hs.fok _ hmem
          obtain ⟨d0, hd0⟩ := List.exists_mem_of_ne_nil deps hne
          exact ⟨d0, List.mem_append_right _ (List.mem_flatMap.2 ⟨_, hmem, hd0⟩), hspec d0 hd0⟩
        unfold deliverOne at hx
        split at hx
        · rename_i hnone
          cases hx
          exact .noAnswer hw0 (by rw [hspec0]; exact hnone)
        · rename_i p m hfetch
          dsimp only at hx
          split at hx
          · cases hx
          · split at hx
            · obtain ⟨y, d, _, _, hy⟩ := foldE_error (I := fun _ _ => True) (fun _ _ _ _ _ _ => trivial) _ _ trivial hx
              unfold serveDep at hy
              split at hy
              · cases hy
              · split at hy
                · rename_i hpl
                  cases hy
                  obtain ⟨n, raw, a, b⟩ := mkReqs_none (placeChild_none hpl)
                  exact .unreadable hw0 (by rw [hspec0]; exact hfetch) a b
                · cases hy
            · cases hx
              exact absurd he0 hnu
    · cases he

end

/-! ### a resolve that never ends -/

namespace Ex

/-- version 1 of the only package requires version 2 of itself, and the other way round -/
def envZ : E where
  parse n s := some (n, s)
  sat := sat
  fetch s := if s.2 = ['1'] then some ((1, 1), { deps := [(1, ['2'])] }) else some ((1, 2), { deps := [(1, ['1'])] })
  nameLe a b := decide (a.1 ≤ b.1)
  concurrency := 10

def rootZ : Nd := mkRoot [(1, ['1'])]

theorem rootZ_ok : IsRoot envZ rootZ := ⟨0, (0, 0), { deps := [(1, ['1'])] }, by rfl⟩

def num (i : Nat) : Nat := if i % 2 = 1 then 1 else 2
def txt (i : Nat) : Str := if i % 2 = 1 then ['1'] else ['2']

theorem sat_txt (i j : Nat) : sat (1, num i) (1, txt j) = true ↔ i % 2 = j % 2 := by
  unfold num txt
  have h1 := Nat.mod_two_eq_zero_or_one i
  have h2 := Nat.mod_two_eq_zero_or_one j
  rcases h1 with h1 | h1 <;> rcases h2 with h2 | h2 <;> rw [h1, h2] <;> decide

/-- each package is inside the one before -/
structure Nest (g : G) : Prop where
  node : ∀ (i : Nat) (nd : Nd), g.nodes[i]? = some nd → nd.reqs = [(1, ((1, txt (i + 1)), .prod))] ∧
    (i ≠ 0 → nd.name = 1 ∧ nd.pkg = (1, num i) ∧ nd.parent = some (i - 1))
  edge : ∀ e ∈ g.edges, e.dst = e.src + 1

theorem Nest.child {g : G} (h : Nest g) (hg : GInv envZ g) {i : Nat} {nd : Nd} (hn : g.nodes[i + 1]? = some nd) : g.child? i 1 = some (i + 1) := by
  obtain ⟨p, pn, h1, _, h3, h4⟩ := hg.par _ nd hn (by omega)
  obtain ⟨a, _, c⟩ := (h.node _ nd hn).2 (by omega)
  rw [c] at h1
  cases h1
  rw [a] at h4
  have h3 : g.nodes[i]? = some pn := h3
  rw [child?_eq h3]
  exact h4

theorem Nest.step {g g' : G} (hg : GInv envZ g) (h : Nest g) (hs : GStep envZ none g g') : Nest g' := by
  cases hs with
  | @link d _ x hp hsd =>
    obtain ⟨rfl, hres, xn, hx, hsat⟩ := satisfy_some hsd
    obtain ⟨nd, hn, hreq, _⟩ := hp
    rw [(h.node _ nd hn).1] at hreq
    have hnm : d.name = 1 ∧ d.spec = (1, txt (d.node + 1)) := by
      simp only [IMap.get?] at hreq
      split at hreq
      · rename_i h1
        simp only [Option.some.injEq, Prod.mk.injEq] at hreq
        exact ⟨h1.symm, hreq.1.symm⟩
      · cases hreq
    have hxe : x = d.node + 1 := by
      rw [hnm.1] at hres
      obtain ⟨u, _, hc⟩ := resolveDep_holder hg.ord hres
      obtain ⟨xn', k1, k2, k3⟩ := hg.child_lt hc
      rw [hx] at k1; cases k1
      have hx0 : x ≠ 0 := by
        rintro rfl
        obtain ⟨rn, r1, r2⟩ := hg.root
        rw [hx] at r1; cases r1; rw [k2] at r2; cases r2
      obtain ⟨_, p2, p3⟩ := (h.node x xn hx).2 hx0
      rw [p2, hnm.2] at hsat
      have hpar := (sat_txt _ _).1 hsat
      have hl := (resolveDep_iff hg.ord _ _ _).1 hres
      cases hl with
      | here q1 q2 =>
        obtain ⟨yn, z1, z2, _⟩ := hg.kid _ _ _ _ q1 q2
        rw [hx] at z1; cases z1
        rw [p3] at z2
        have := Option.some.inj z2
        omega
      | @up _ p _ _ qn q1 q2 q3 q4 =>
        exfalso
        have hd0 : d.node ≠ 0 := by
          intro h0
          rw [h0] at q1
          obtain ⟨rn, r1, r2⟩ := hg.root
          rw [q1] at r1; cases r1; rw [q3] at r2; cases r2
        obtain ⟨j, hj⟩ : ∃ j, d.node = j + 1 := ⟨d.node - 1, by omega⟩
        rw [hj] at q1
        have hpj := ((h.node _ qn q1).2 (by omega)).2.2
        rw [q3] at hpj
        have : p = j := by have := Option.some.inj hpj; omega
        subst this
        have hch := h.child hg q1
        have hrj := (resolveDep_iff hg.ord _ _ _).2 q4
        obtain ⟨jn, hjn⟩ : ∃ jn, g.nodes[p]? = some jn := ⟨_, List.getElem?_eq_getElem (Nat.lt_of_succ_lt (lt_of_get q1))⟩
        rw [child?_eq hjn] at hch
        have := (resolveDep_iff hg.ord _ _ _).2 (.here hjn hch)
        rw [hrj] at this
        have := Option.some.inj this
        omega
    constructor
    · intro i z hz
      obtain ⟨y, hy, rfl⟩ := linkAt_inv hz
      exact h.node i y hy
    · intro e he
      rw [linkAt_edges, List.mem_append, List.mem_singleton] at he
      rcases he with he | rfl
      · exact h.edge e he
      · exact hxe
  | @place d p m tp r hp hsd hsrc hpl =>
    obtain ⟨nn, t, hnew, ht, hgr, _, _⟩ := placeChild_eq hg hp hsd hpl
    have hown := own_clear hg hp hsd
    obtain ⟨nd, hn, hreq, _⟩ := id hp
    rw [(h.node _ nd hn).1] at hreq
    have hnm : d.name = 1 ∧ d.spec = (1, txt (d.node + 1)) := by
      simp only [IMap.get?] at hreq
      split at hreq
      · rename_i h1
        simp only [Option.some.injEq, Prod.mk.injEq] at hreq
        exact ⟨h1.symm, hreq.1.symm⟩
      · cases hreq
    rw [hnm.1] at hown
    have hlen : g.nodes.length = d.node + 1 := by
      have := hp.lt
      by_contra hne
      have hlt : d.node + 1 < g.nodes.length := by omega
      rw [h.child hg (List.getElem?_eq_getElem hlt)] at hown
      cases hown
    have hte : t = d.node := by
      by_contra hne
      have hw := ht.within
      cases hw with
      | refl => exact hne rfl
      | @up _ q _ qn q1 q2 q3 =>
        have hd0 : d.node ≠ 0 := by
          intro h0
          rw [h0] at q1
          obtain ⟨rn, r1, r2⟩ := hg.root
          rw [q1] at r1; cases r1; rw [q2] at r2; cases r2
        have hq := ((h.node _ qn q1).2 hd0).2.2
        rw [q2] at hq
        have hq := Option.some.inj hq
        have hqn : ∃ x, g.nodes[q]? = some x := ⟨_, List.getElem?_eq_getElem (by have := lt_of_get q1; omega)⟩
        obtain ⟨x, hx⟩ := hqn
        have hcl := ht.clear q (.up q1 q2 (.refl hx)) q3
        have hj : d.node = q + 1 := by omega
        rw [hj] at q1
        rw [hnm.1, h.child hg q1] at hcl
        cases hcl
    subst hte
    have hfetch : envZ.fetch (1, txt (d.node + 1)) = some (p, m) := by
      rcases hsrc with ⟨hf, _⟩ | ⟨l, _, hl, _⟩
      · rw [← hnm.2]; exact hf
      · cases hl
    have hpm : p = (1, num (d.node + 1)) ∧ m = { deps := [(1, txt (d.node + 1 + 1))] } := by
      simp only [envZ] at hfetch
      unfold txt num at *
      rcases Nat.mod_two_eq_zero_or_one (d.node + 1) with hpar | hpar
      · have h2 : (d.node + 1 + 1) % 2 = 1 := by omega
        rw [hpar] at hfetch
        simp only [hpar, h2]
        cases hfetch
        exact ⟨rfl, rfl⟩
      · have h2 : (d.node + 1 + 1) % 2 = 0 := by omega
        rw [hpar] at hfetch
        simp only [hpar, h2]
        cases hfetch
        exact ⟨rfl, rfl⟩
    obtain ⟨n1, n2, _, _, _, n6⟩ := nodeNew_spec hnew
    rw [hgr]
    constructor
    · intro i z hz
      rcases placeAt_cases _ d nn d.node hp.lt hp.lt hz with ⟨_, y, hy, rfl⟩ | ⟨rfl, rfl⟩
      · exact h.node i y hy
      · rw [hlen]
        refine ⟨?_, fun _ => ⟨n1.trans hnm.1, n2.trans hpm.1, rfl⟩⟩
        rw [hpm.2] at n6
        exact (Option.some.inj n6).symm
    · intro e he
      rw [placeAt_edges, List.mem_append, List.mem_singleton] at he
      rcases he with he | rfl
      · exact h.edge e he
      · exact hlen

end Ex

open Ex in
/-- **C77** is false of the code: with a registry of two package versions that require each other, where every request
is answered, no run ever ends – whatever happens, there is a next event, none fails, and the tree gets deeper forever. -/
theorem C77_fails : ∃ (env : E) (root : Nd), IsRoot env root ∧ (∀ spec, (env.fetch spec = some ((1, 1), { deps := [(1, ['2'])] }) ∨
      env.fetch spec = some ((1, 2), { deps := [(1, ['1'])] }))) ∧
    ∀ s, RReach env none root s → s.done = false ∧ ∃ ev s', rstep env none s ev = some (.ok s') := by
  refine ⟨envZ, rootZ, rootZ_ok, ?_, ?_⟩
  · intro spec
    simp only [envZ]
    split
    · exact .inl rfl
    · exact .inr rfl
  · intro s h
    have hn : Nest s.graph := by
      refine h.graph_ind rootZ_ok (I := Nest) ⟨?_, ?_⟩ (fun g g' hg hi hs => hi.step hg hs)
      · intro i nd hi
        cases i with
        | zero =>
          simp only [List.getElem?_cons_zero, Option.some.injEq] at hi
          subst hi
          exact ⟨rfl, fun h => absurd rfl h⟩
        | succ i => simp at hi
      · intro e he; cases he
    have hd : s.done = false := by
      cases hdone : s.done with
      | false => rfl
      | true =>
        exfalso
        have hg := (h.sinv rootZ_ok).pinv.ginv
        obtain ⟨rn, hrn, _⟩ := hg.root
        have hpos := lt_of_get hrn
        have hlt : s.graph.nodes.length - 1 < s.graph.nodes.length := by omega
        have hlast := List.getElem?_eq_getElem hlt
        obtain ⟨e, hlk, hsrc, _⟩ := (C04_all_linked rootZ_ok h hdone).1 (s.graph.nodes.length - 1) 1 (1, txt (s.graph.nodes.length - 1 + 1)) .prod
          ⟨_, hlast, by rw [(hn.node _ _ hlast).1]; rfl⟩
        obtain ⟨_, k, _, _, hk⟩ := hlk
        have he := List.mem_of_getElem? hk
        have h1 := hn.edge e he
        have h2 := (hg.edge_lt he).2
        omega
    refine ⟨hd, ?_⟩
    obtain ⟨ev, r, he⟩ := (C06_counts rootZ_ok h).2.2.1 (by decide) hd
    cases r with
    | ok s' => exact ⟨ev, s', he⟩
    | error x =>
      exfalso
      cases C09_why rootZ_ok h he with
      | noAnswer _ hf => simp only [envZ] at hf; split at hf <;> cases hf
      | unreadable _ _ _ hp => cases hp
      | unreadableEntry hl => cases hl
      | badEntry hl => cases hl

end Oro
