import Verif.Proofs.Relocked
import Verif.Props.Relock
import Verif.Props.Lockfile
import Verif.Props.SameTree
/- C16: resolving again from the lockfile just written. -/

set_option linter.unusedSectionVars false

namespace Oro
open Graph
variable {P S V I : Type} [DecidableEq S]

/-- dependencies of packages are ordinary or optional -/
theorem reqFold_kinds {N : Type} [DecidableEq N] {parse : N → Str → Option S} (l : List ((N × Str) × DepType))
    (hl : ∀ d ∈ l, d.2 = .prod ∨ d.2 = .opt) : ∀ {acc r : IMap N (S × DepType)}, reqFold parse (some acc) l = some r →
    (∀ n x, acc.get? n = some x → x.2 = .prod ∨ x.2 = .opt) → ∀ n x, r.get? n = some x → x.2 = .prod ∨ x.2 = .opt := by
  induction l with
  | nil => intro acc r h ha; simp only [reqFold, List.foldl_nil, Option.some.injEq] at h; subst h; exact ha
  | cons d l ih =>
    intro acc r h ha
    simp only [reqFold, List.foldl_cons] at h
    cases hp : parse d.1.1 d.1.2 with
    | none => rw [hp] at h; rw [show l.foldl _ none = reqFold parse none l from rfl, reqFold_none] at h; cases h
    | some spec =>
      rw [hp] at h
      refine ih (fun d hd => hl d (List.mem_cons_of_mem _ hd)) h ?_
      intro n x hx
      rw [IMap.get?_insert] at hx
      split at hx
      · cases hx; exact hl d (by simp)
      · exact ha n x hx

theorem mkReqs_kinds {N : Type} [DecidableEq N] {parse : N → Str → Option S} {m : Manifest N} {r : IMap N (S × DepType)}
    (h : mkReqs parse m false = some r) {n : N} {spec : S} {ty : DepType} (hx : r.get? n = some (spec, ty)) : ty = .prod ∨ ty = .opt := by
  refine reqFold_kinds (m.deps.map (fun d => (d, DepType.prod)) ++ m.optDeps.map (fun d => (d, DepType.opt)) ++ []) ?_ h ?_ n _ hx
  · intro d hd
    simp only [List.append_nil, List.mem_append, List.mem_map] at hd
    rcases hd with ⟨x, _, rfl⟩ | ⟨x, _, rfl⟩
    · exact .inl rfl
    · exact .inr rfl
  · intro n x hx; cases hx

theorem reqFold_parsed {N : Type} [DecidableEq N] {parse : N → Str → Option S} (l : List ((N × Str) × DepType)) :
    ∀ {acc r : IMap N (S × DepType)}, reqFold parse (some acc) l = some r → ∀ d ∈ l, ∃ spec, parse d.1.1 d.1.2 = some spec := by
  induction l with
  | nil => intro _ _ _ d hd; cases hd
  | cons a l ih =>
    intro acc r h d hd
    simp only [reqFold, List.foldl_cons] at h
    cases hp : parse a.1.1 a.1.2 with
    | none => rw [hp] at h; rw [show l.foldl _ none = reqFold parse none l from rfl, reqFold_none] at h; cases h
    | some spec =>
      rw [hp] at h
      rcases List.mem_cons.1 hd with rfl | hd
      · exact ⟨spec, hp⟩
      · exact ih h d hd

section
variable {env : Env Str P S} {lock : Option (LockTree Str P)} {root : Node Str P S} {s : RState Str P S}
  {v : LockView P S V I} {c : Codec V I}

theorem linked_fn {g : Graph Str P S} {i : Nat} {n : Str} {e e' : Edge S} (h : Linked g i n e) (h' : Linked g i n e') : e = e' := by
  obtain ⟨nd, k, h1, h2, h3⟩ := h
  obtain ⟨nd', k', g1, g2, g3⟩ := h'
  rw [h1] at g1; cases g1
  rw [h2] at g2; cases g2
  rw [h3] at g3; cases g3; rfl

/-- the lockfile written for a finished tree, and read back, describes it -/
theorem describes_lockfile (hr : IsRoot env root) (h : RReach env lock root s) (hd : s.done = true)
    (hv : ∀ i nd, i ≠ 0 → s.graph.nodes[i]? = some nd → ValidName nd.name)
    (hspec : ∀ i n spec ty, i ≠ 0 → Declares s.graph i n spec ty → env.parse n (v.reqStr spec) = some spec)
    {toPackage : LNode V I → Option (Option P)}
    (hpk : ∀ (i : Nat) (nd : Node Str P S) (n : LNode V I), i ≠ 0 → s.graph.nodes[i]? = some nd → n.name = nd.name →
      Records n (v.resolved nd.pkg) → toPackage n = some (some nd.pkg))
    {l l' : Lockfile V I} (hl : toLockfile v s.graph = some l) (hrd : Lockfile.fromKdl c (l.toKdl c) = .ok l') :
    Describes env (l'.tree toPackage) s.graph := by
  have hg := (h.sinv hr).pinv.ginv
  have hp := toLockfile_proper hg.folderTree hg.ord hl
  rw [Lockfile.fromKdl_toKdl c l hp] at hrd
  cases hrd
  obtain ⟨_, hwf, hent, _⟩ := C15_one_entry_each hr h hv hl
  have hlinked := (C04_all_linked hr h hd).1
  constructor
  · intro π ent he
    have hmem := IMap.mem_of_get? he
    simp only [Lockfile.tree, List.map_map, List.mem_map, Function.comp] at hmem
    obtain ⟨p, hpm, hpe⟩ := hmem
    rw [(sortKeys_perm l.packages).mem_iff] at hpm
    simp only [Prod.mk.injEq] at hpe
    obtain ⟨hpath, hpe⟩ := hpe
    subst hpe
    obtain ⟨i, h0, hi, hln, hkey⟩ := toLockfile_entry hl hpm
    have hn := List.getElem?_eq_getElem hi
    generalize s.graph.nodes[i] = nd at hn
    have hpp := (lockNode_path hln).1
    have hπ : s.graph.nodePath i = π := by rw [← hpp]; exact hpath
    have hloc : LocatedAt s.graph i π := (locatedAt_iff hg.folderTree hg.ord).2 ⟨⟨nd, hn⟩, hπ⟩
    obtain ⟨q, q1, q2, q3, q4, q5⟩ := hent i nd π h0 hn hloc
    have hq : q = p.2 := by
      have := IMap.get?_of_mem hwf hpm
      rw [hkey, hpp, hπ, q1] at this
      exact Option.some.inj this
    subst hq
    have hw := (toLockfile_wf hl).nodes _ hpm
    have hnr : p.2.isRoot = false := (hp.entries _ hpm).1
    have hsec : ∀ ty n raw, (n, raw) ∈ (p.2.norm false).section ty ↔ ∃ e, Linked s.graph i n e ∧ e.ty = ty ∧ v.reqStr e.spec = raw := by
      intro ty n raw
      rw [← q5, LNode.norm_section, ← IMap.get?_some_iff_mem (sortKeys_wf (hw ty)), get?_sortKeys (hw ty)]
    have hkeys : ∀ ty, (((p.2.norm false).section ty).map (·.1)).Nodup := by
      intro ty
      rw [LNode.norm_section]
      exact sortKeys_wf (hw ty)
    refine ⟨i, nd, h0, hn, hloc, hpath, ?_, ⟨hkeys .prod, hkeys .opt, hkeys .dev⟩, ?_, ?_⟩
    · refine hpk i nd _ h0 hn ?_ ?_
      · show p.2.path.getLast?.getD [] = nd.name
        rw [q2]
        cases hloc with
        | root => exact absurd rfl h0
        | inside hn' _ _ => rw [hn] at hn'; cases hn'; simp
      · have hse := LNode.norm_entry hw hnr (by
          intro hres
          unfold Records at q4
          split at q4 <;> (rw [q4.1] at hres; cases hres)) false
        unfold Records at q4 ⊢
        rw [hse.resolved, hse.version, hse.integrity]
        exact q4
    · intro d hdm
      obtain ⟨n, raw⟩ := d
      have : ∃ ty, (n, raw) ∈ (p.2.norm false).section ty := by
        rcases List.mem_append.1 hdm with h | h
        · exact ⟨.prod, h⟩
        · exact ⟨.opt, h⟩
      obtain ⟨ty, hm⟩ := this
      obtain ⟨e, e1, _, rfl⟩ := (hsec ty n raw).1 hm
      rw [hspec i n _ _ h0 (linked_declares hg e1)]
      simp
    · intro n spec ty
      have hS : ∀ ty raw, Requires (p.2.norm false).manifest false n raw ty ↔
          (ty = .prod ∨ ty = .opt) ∧ (n, raw) ∈ (p.2.norm false).section ty := by
        intro ty raw
        unfold Requires
        constructor
        · rintro (⟨_, h, _⟩ | ⟨rfl, h, _⟩ | ⟨rfl, h, _⟩)
          · cases h
          · exact ⟨.inr rfl, h⟩
          · exact ⟨.inl rfl, h⟩
        · rintro ⟨rfl | rfl, h⟩
          · refine .inr (.inr ⟨rfl, h, ?_, by simp⟩)
            intro hmem
            obtain ⟨⟨n', raw'⟩, hm', rfl⟩ := List.mem_map.1 hmem
            obtain ⟨e, e1, e2, _⟩ := (hsec .prod _ raw).1 h
            obtain ⟨e', f1, f2, _⟩ := (hsec .opt _ raw').1 hm'
            have := linked_fn e1 f1
            subst this
            rw [e2] at f2; cases f2
          · exact .inr (.inl ⟨rfl, h, by simp⟩)
      constructor
      · intro hreq
        obtain ⟨e, e1, _, e3, e4⟩ := hlinked i n spec ty ⟨nd, hn, hreq⟩
        refine ⟨v.reqStr spec, (hS ty _).2 ⟨?_, (hsec ty n _).2 ⟨e, e1, e4, by rw [e3]⟩⟩, hspec i n spec ty h0 ⟨nd, hn, hreq⟩⟩
        obtain ⟨m', _, hmk⟩ := h.prov hr i nd hn h0
        exact mkReqs_kinds hmk hreq
      · rintro ⟨raw, h1, h2⟩
        obtain ⟨e, e1, e2, e3⟩ := (hsec ty n raw).1 ((hS ty raw).1 h1).2
        have hde := linked_declares hg e1
        rw [← e3, hspec i n _ _ h0 hde] at h2
        cases h2
        obtain ⟨nd', k1, k2⟩ := hde
        rw [hn] at k1; cases k1
        rw [k2, e2]
  · intro i π h0 hloc hnone
    obtain ⟨nd, hn⟩ := located_node hloc
    obtain ⟨q, q1, q2, _⟩ := hent i nd π h0 hn hloc
    rw [IMap.get?_eq_none_iff] at hnone
    apply hnone
    have hm := IMap.mem_of_get? q1
    rw [← (sortKeys_perm l.packages).mem_iff] at hm
    simp only [IMap.keys, Lockfile.tree, List.map_map, List.mem_map, Function.comp]
    exact ⟨_, hm, q2⟩

end

section
variable {env : Env Str P S} {lock : Option (LockTree Str P)} {root : Node Str P S} {s0 s : RState Str P S}
  {v : LockView P S V I} {c : Codec V I}

/-- the lockfile of a sound and unambiguous tree can be resolved again -/
theorem relockable_lockfile {nm : Str} {pk : P} {m : Manifest Str} (hr : Node.new env.parse nm pk m true = some root) (hm : m.Proper)
    (h0 : RReach env lock root s0) (hd0 : s0.done = true) (hll : LinksLoad s0.graph)
    (hans : Answered env s0.graph) (hone : Unambiguous env s0.graph)
    (hv : ∀ i nd, i ≠ 0 → s0.graph.nodes[i]? = some nd → ValidName nd.name)
    (hspec : ∀ i n spec ty, i ≠ 0 → Declares s0.graph i n spec ty → env.parse n (v.reqStr spec) = some spec)
    {toPackage : LNode V I → Option (Option P)}
    (hpk : ∀ (i : Nat) (nd : Node Str P S) (n : LNode V I), i ≠ 0 → s0.graph.nodes[i]? = some nd → n.name = nd.name →
      Records n (v.resolved nd.pkg) → toPackage n = some (some nd.pkg))
    {l l' : Lockfile V I} (hl : toLockfile v s0.graph = some l) (hrd : Lockfile.fromKdl c (l.toKdl c) = .ok l')
    (fetch : S → Option (P × Manifest Str)) (concurrency : Nat) :
    Relockable { env with fetch := fetch, concurrency := concurrency } m (l'.tree toPackage) s0.graph := by
  have hr0 : IsRoot env root := ⟨nm, pk, m, hr⟩
  have hg := (h0.sinv hr0).pinv.ginv
  have hdesc := describes_lockfile hr0 h0 hd0 hv hspec hpk hl hrd
  refine ⟨⟨hdesc.only, hdesc.all⟩, hm, ?_, ?_, hone⟩
  · intro nd hn
    obtain ⟨nd', g1, g2, _⟩ := h0.root_reqs hr0
    rw [hn] at g1; cases g1
    rw [g2]
    exact (nodeNew_spec hr).2.2.2.2.2
  · intro i n spec ty hdec
    obtain ⟨e, e1, e2, e3, e4⟩ := (C04_all_linked hr0 h0 hd0).1 i n spec ty hdec
    obtain ⟨nd, k, k1, k2, k3⟩ := id e1
    obtain ⟨e', dn, f1, f2, f3, f4⟩ := hg.depReg i nd n k k1 k2
    rw [k3] at f1; cases f1
    refine ⟨e.dst, dn, hll i n e e1, f3, ?_⟩
    rw [← e3]
    rcases hg.sound e (List.mem_of_getElem? k3) dn f3 with h | ⟨m', h⟩
    · exact h
    · exact hans i n e.spec ty _ m' (by rw [e3]; exact hdec) h

/-- resolving again from the lockfile: the same packages with the same requirements at the same places -/
theorem relocked_same {nm : Str} {pk : P} {m : Manifest Str} (hr : Node.new env.parse nm pk m true = some root) (hm : m.Proper)
    (h0 : RReach env lock root s0) (hd0 : s0.done = true) (hll : LinksLoad s0.graph)
    (hans : Answered env s0.graph) (hone : Unambiguous env s0.graph)
    (hv : ∀ i nd, i ≠ 0 → s0.graph.nodes[i]? = some nd → ValidName nd.name)
    (hspec : ∀ i n spec ty, i ≠ 0 → Declares s0.graph i n spec ty → env.parse n (v.reqStr spec) = some spec)
    {toPackage : LNode V I → Option (Option P)}
    (hpk : ∀ (i : Nat) (nd : Node Str P S) (n : LNode V I), i ≠ 0 → s0.graph.nodes[i]? = some nd → n.name = nd.name →
      Records n (v.resolved nd.pkg) → toPackage n = some (some nd.pkg))
    {l l' : Lockfile V I} (hl : toLockfile v s0.graph = some l) (hrd : Lockfile.fromKdl c (l.toKdl c) = .ok l')
    (fetch : S → Option (P × Manifest Str)) (concurrency : Nat)
    (h : RReach { env with fetch := fetch, concurrency := concurrency } (some (l'.tree toPackage)) root s)
    (hd : s.done = true) :
    (∀ {i j : Nat} {nd jn : Node Str P S} {π : List Str}, i ≠ 0 → j ≠ 0 → s0.graph.nodes[i]? = some nd → LocatedAt s0.graph i π →
      s.graph.nodes[j]? = some jn → LocatedAt s.graph j π → jn.pkg = nd.pkg ∧ ∀ n, jn.reqs.get? n = nd.reqs.get? n) ∧
    (∀ π, (∃ i, LocatedAt s0.graph i π) ↔ ∃ j, LocatedAt s.graph j π) ∧
    Describes env (l'.tree toPackage) s0.graph ∧ Follows { env with fetch := fetch, concurrency := concurrency } m (l'.tree toPackage) s.graph := by
  have hr0 : IsRoot env root := ⟨nm, pk, m, hr⟩
  have hg := (h0.sinv hr0).pinv.ginv
  have hdesc := describes_lockfile hr0 h0 hd0 hv hspec hpk hl hrd
  have hrel := relockable_lockfile (c := c) hr hm h0 hd0 hll hans hone hv hspec hpk hl hrd fetch concurrency
  have hset := hrel.settled hg
  have hr' : Node.new ({ env with fetch := fetch, concurrency := concurrency } : Env Str P S).parse nm pk m true = some root := hr
  have hr1 : IsRoot { env with fetch := fetch, concurrency := concurrency } root := ⟨nm, pk, m, hr'⟩
  have hg1 := (h.sinv hr1).pinv.ginv
  obtain ⟨r0, r0n, r0r, r0p, r0m⟩ := h0.root_reqs hr0
  obtain ⟨r1, r1n, r1r, r1p, r1m⟩ := h.root_reqs hr1
  have hneed := hrel.needed hg hll (h0.older hr0)
  obtain ⟨hf, _⟩ := h.follows hr' hm hset
  refine ⟨?_, ?_, hdesc, hf⟩
  · intro i j nd jn π hi0 hj0 hi hil hj hjl
    obtain ⟨ent, e1, _, e3, e4, _, e6⟩ := hdesc.ent hg hi0 hi hil
    obtain ⟨_, m', ⟨ent', g1, g2, rfl⟩, g3⟩ := hf.node j jn π hj0 hj hjl
    rw [e1] at g1; cases g1
    rw [e3] at g2
    refine ⟨(Option.some.inj (Option.some.inj g2)).symm, ?_⟩
    intro n
    have : ∀ x, jn.reqs.get? n = some x ↔ nd.reqs.get? n = some x := by
      rintro ⟨spec, ty⟩
      rw [e6, mkReqs_spec e4 g3]
    cases hx : jn.reqs.get? n with
    | some x => rw [(this x).1 hx]
    | none =>
      cases hy : nd.reqs.get? n with
      | none => rfl
      | some y => rw [(this y).2 hy] at hx; cases hx
  · intro π
    constructor
    · rintro ⟨i, hi⟩
      exact hf.installed hm hset hr1 h hd (hneed i π hi)
    · rintro ⟨j, hj⟩
      exact hrel.located hg (hf.needed hg1 hj)

/-- **C16**. After any resolve whose tree is sound – what requirements load is what they were linked to (C01) – and in which
no requirement is also met by another package around, and in which what the registry answered satisfies what was asked:
resolving again from the lockfile that was written, whatever the registry says now, asks it for nothing, never fails,
installs the same packages at the same places and writes the same lockfile. (The hypotheses on names, specifiers and packages
say that they can be read back from the lockfile: C60, C22.) -/
theorem C16_partial {nm : Str} {pk : P} {m : Manifest Str} (hr : Node.new env.parse nm pk m true = some root) (hm : m.Proper)
    (h0 : RReach env lock root s0) (hd0 : s0.done = true) (hll : LinksLoad s0.graph)
    (hans : Answered env s0.graph) (hone : Unambiguous env s0.graph)
    (hv : ∀ i nd, i ≠ 0 → s0.graph.nodes[i]? = some nd → ValidName nd.name)
    (hspec : ∀ i n spec ty, i ≠ 0 → Declares s0.graph i n spec ty → env.parse n (v.reqStr spec) = some spec)
    {toPackage : LNode V I → Option (Option P)}
    (hpk : ∀ (i : Nat) (nd : Node Str P S) (n : LNode V I), i ≠ 0 → s0.graph.nodes[i]? = some nd → n.name = nd.name →
      Records n (v.resolved nd.pkg) → toPackage n = some (some nd.pkg))
    {l l' : Lockfile V I} (hl : toLockfile v s0.graph = some l) (hrd : Lockfile.fromKdl c (l.toKdl c) = .ok l')
    (fetch : S → Option (P × Manifest Str)) (concurrency : Nat)
    (h : RReach { env with fetch := fetch, concurrency := concurrency } (some (l'.tree toPackage)) root s) :
    s.waiting = [] ∧
    (∀ ev r, rstep { env with fetch := fetch, concurrency := concurrency } (some (l'.tree toPackage)) s ev = some r → ∃ s', r = .ok s') ∧
    (s.done = true → (∀ π p, Installed s.graph π p ↔ Installed s0.graph π p) ∧
      ∃ l2, toLockfile v s.graph = some l2 ∧ l2.toKdl c = l.toKdl c) := by
  have hr0 : IsRoot env root := ⟨nm, pk, m, hr⟩
  have hg := (h0.sinv hr0).pinv.ginv
  have hdesc := describes_lockfile hr0 h0 hd0 hv hspec hpk hl hrd
  have hrel := relockable_lockfile (c := c) hr hm h0 hd0 hll hans hone hv hspec hpk hl hrd fetch concurrency
  have hset := hrel.settled hg
  have hr' : Node.new ({ env with fetch := fetch, concurrency := concurrency } : Env Str P S).parse nm pk m true = some root := hr
  have hr1 : IsRoot { env with fetch := fetch, concurrency := concurrency } root := ⟨nm, pk, m, hr'⟩
  obtain ⟨w1, w2, _, w4, w5, _⟩ := C75_follows hr' hm hset h
  refine ⟨w1, w2, ?_⟩
  intro hd
  have hk := relocked_same hr hm h0 hd0 hll hans hone hv hspec hpk hl hrd fetch concurrency h hd
  exact same_tree_same_lockfile hr0 hr1 h0 h hd0 hd hk.1 hk.2.1 hv hl

/-- **C16**, trees in which no package is there twice: nothing is assumed about the links. -/
theorem C16_flat_partial {nm : Str} {pk : P} {m : Manifest Str} (hr : Node.new env.parse nm pk m true = some root) (hm : m.Proper)
    (h0 : RReach env lock root s0) (hd0 : s0.done = true)
    (hflat : ∀ (i j : Nat) (a b : Node Str P S), i ≠ 0 → j ≠ 0 → s0.graph.nodes[i]? = some a → s0.graph.nodes[j]? = some b → a.name = b.name → i = j)
    (hans : Answered env s0.graph)
    (hv : ∀ i nd, i ≠ 0 → s0.graph.nodes[i]? = some nd → ValidName nd.name)
    (hspec : ∀ i n spec ty, i ≠ 0 → Declares s0.graph i n spec ty → env.parse n (v.reqStr spec) = some spec)
    {toPackage : LNode V I → Option (Option P)}
    (hpk : ∀ (i : Nat) (nd : Node Str P S) (n : LNode V I), i ≠ 0 → s0.graph.nodes[i]? = some nd → n.name = nd.name →
      Records n (v.resolved nd.pkg) → toPackage n = some (some nd.pkg))
    {l l' : Lockfile V I} (hl : toLockfile v s0.graph = some l) (hrd : Lockfile.fromKdl c (l.toKdl c) = .ok l')
    (fetch : S → Option (P × Manifest Str)) (concurrency : Nat)
    (h : RReach { env with fetch := fetch, concurrency := concurrency } (some (l'.tree toPackage)) root s) :
    s.waiting = [] ∧
    (∀ ev r, rstep { env with fetch := fetch, concurrency := concurrency } (some (l'.tree toPackage)) s ev = some r → ∃ s', r = .ok s') ∧
    (s.done = true → (∀ π p, Installed s.graph π p ↔ Installed s0.graph π p) ∧
      ∃ l2, toLockfile v s.graph = some l2 ∧ l2.toKdl c = l.toKdl c) := by
  obtain ⟨hll, hone⟩ := h0.flat (env' := env) ⟨nm, pk, m, hr⟩ hflat
  exact C16_partial hr hm h0 hd0 hll hans hone hv hspec hpk hl hrd fetch concurrency h

/-- **C75**, `oro remove` after an install: if the tree was sound and unambiguous, and some requirements are taken out of
`package.json`, resolving again with the lockfile asks for nothing, and leaves exactly those packages that the project still
needs, where they were. -/
theorem C75_remove {nm : Str} {pk : P} {m m' : Manifest Str} {root' : Node Str P S} (hr : Node.new env.parse nm pk m true = some root)
    (hm : m.Proper) (hm' : m'.Proper) (hsub : ∀ n raw ty, Requires m' true n raw ty → Requires m true n raw ty)
    (hr' : Node.new env.parse nm pk m' true = some root')
    (h0 : RReach env lock root s0) (hd0 : s0.done = true) (hll : LinksLoad s0.graph)
    (hans : Answered env s0.graph) (hone : Unambiguous env s0.graph)
    (hv : ∀ i nd, i ≠ 0 → s0.graph.nodes[i]? = some nd → ValidName nd.name)
    (hspec : ∀ i n spec ty, i ≠ 0 → Declares s0.graph i n spec ty → env.parse n (v.reqStr spec) = some spec)
    {toPackage : LNode V I → Option (Option P)}
    (hpk : ∀ (i : Nat) (nd : Node Str P S) (n : LNode V I), i ≠ 0 → s0.graph.nodes[i]? = some nd → n.name = nd.name →
      Records n (v.resolved nd.pkg) → toPackage n = some (some nd.pkg))
    {l l' : Lockfile V I} (hl : toLockfile v s0.graph = some l) (hrd : Lockfile.fromKdl c (l.toKdl c) = .ok l')
    (fetch : S → Option (P × Manifest Str)) (concurrency : Nat)
    (h : RReach { env with fetch := fetch, concurrency := concurrency } (some (l'.tree toPackage)) root' s) :
    s.waiting = [] ∧ (s.done = true → ∀ π p, π ≠ [] →
      (Installed s.graph π p ↔ ∃ i nd, LocatedAt s0.graph i π ∧ s0.graph.nodes[i]? = some nd ∧ nd.pkg = p ∧ Uses s0.graph m' i)) := by
  have hr0 : IsRoot env root := ⟨nm, pk, m, hr⟩
  have hg := (h0.sinv hr0).pinv.ginv
  have hrel := relockable_lockfile (c := c) hr hm h0 hd0 hll hans hone hv hspec hpk hl hrd fetch concurrency
  have hset := hrel.settled hg
  obtain ⟨w1, w2⟩ := C75_removed (root := root') hset hm' hsub (nm := nm) (pk := pk) hr' h
  refine ⟨w1, fun hd π p hne => ?_⟩
  rw [w2 hd π p hne]
  obtain ⟨rn, hrn, _⟩ := hg.root
  -- needed packages of the lockfile are those used in the tree
  have key : ∀ π, Needed { env with fetch := fetch, concurrency := concurrency } m' (l'.tree toPackage) π →
      ∃ i, LocatedAt s0.graph i π ∧ Uses s0.graph m' i := by
    intro π hn
    induction hn with
    | project => exact ⟨0, .root hrn, .project⟩
    | @dep π π' n spec ty p _ hw hnear ih =>
      obtain ⟨i, hil, hu⟩ := ih
      obtain ⟨nd, hi⟩ := located_node hil
      have hdec : Declares s0.graph i n spec ty := ⟨nd, hi, (hrel.wants hg hi hil n spec ty).1 (hw.fewer hsub)⟩
      obtain ⟨c, cn, c1, c2, _⟩ := hrel.loads i n spec ty hdec
      obtain ⟨σ, cn', _, c4, c5⟩ := hrel.desc.nearest hg c1 hil
      rw [(hnear.fn c5).1]
      refine ⟨c, c4, ?_⟩
      by_cases hi0 : i = 0
      · subst hi0
        have := located_fn hg hil (.root hi)
        subst this
        obtain ⟨raw, _, ⟨_, hq⟩ | ⟨hq, _⟩⟩ := hw
        · exact .direct hq c1
        · exact absurd rfl hq
      · exact .dep hu hi0 hdec c1
  have back : ∀ i, Uses s0.graph m' i → ∀ π, LocatedAt s0.graph i π →
      Needed { env with fetch := fetch, concurrency := concurrency } m' (l'.tree toPackage) π := by
    intro i hu
    induction hu with
    | project =>
      intro π hl
      rw [located_fn hg hl (.root hrn)]
      exact .project
    | @direct n raw ty c hq hld =>
      intro π hl
      obtain ⟨σ, cn, _, c4, c5⟩ := hrel.desc.nearest hg hld (.root hrn)
      rw [located_fn hg hl c4]
      have hmk := (nodeNew_spec hr').2.2.2.2.2
      have : ∃ spec, env.parse n raw = some spec := by
        have hin : ∃ d ∈ m'.deps.map (fun d => (d, DepType.prod)) ++ m'.optDeps.map (fun d => (d, DepType.opt)) ++
            m'.devDeps.map (fun d => (d, DepType.dev)), d.1 = (n, raw) := by
          rcases hq with ⟨_, _, h⟩ | ⟨_, h, _⟩ | ⟨_, h, _⟩
          · exact ⟨((n, raw), .dev), by simp [h], rfl⟩
          · exact ⟨((n, raw), .opt), by simp [h], rfl⟩
          · exact ⟨((n, raw), .prod), by simp [h], rfl⟩
        obtain ⟨d, hd1, hd2⟩ := hin
        have := reqFold_parsed _ hmk d hd1
        rw [hd2] at this
        exact this
      obtain ⟨spec, hp⟩ := this
      exact .dep .project ⟨raw, hp, .inl ⟨rfl, hq⟩⟩ c5
    | @dep i n spec ty c _ hi0 hdec hld ih =>
      intro π hl
      obtain ⟨nd, hi, hq⟩ := hdec
      obtain ⟨σ, hσ⟩ := located_exists hg (lt_of_get hi)
      obtain ⟨τ, cn, _, c4, c5⟩ := hrel.desc.nearest hg hld hσ
      rw [located_fn hg hl c4]
      obtain ⟨raw, h1, ⟨h2, _⟩ | h2⟩ := (hrel.wants hg hi hσ n spec ty).2 hq
      · exact absurd h2 (located_ne hσ hi0)
      · exact .dep (ih σ hσ) ⟨raw, h1, .inr h2⟩ c5
  constructor
  · rintro ⟨hn, m'', ent, e1, e2, _⟩
    obtain ⟨i, hil, hu⟩ := key π hn
    obtain ⟨nd, hi⟩ := located_node hil
    have hi0 : i ≠ 0 := by
      rintro rfl
      exact hne (located_fn hg hil (.root hi))
    obtain ⟨ent', f1, _, f3, _⟩ := hrel.desc.ent hg hi0 hi hil
    rw [e1] at f1; cases f1
    rw [e2] at f3
    exact ⟨i, nd, hil, hi, (Option.some.inj (Option.some.inj f3)).symm, hu⟩
  · rintro ⟨i, nd, hil, hi, rfl, hu⟩
    have hi0 : i ≠ 0 := by
      rintro rfl
      exact hne (located_fn hg hil (.root hi))
    obtain ⟨ent, f1, _, f3, _⟩ := hrel.desc.ent hg hi0 hi hil
    exact ⟨back i hu π hil, _, ent, f1, f3, rfl⟩

end

/-! ### cases that meet the hypotheses -/

/-- what a tree with these links loads, and what else is around -/
def linksOk {N P S : Type} [DecidableEq N] (g : Graph N P S) : Bool :=
  g.nodes.zipIdx.all fun x => x.1.deps.all fun d => match g.edges[d.2]? with
    | some e => decide (g.resolveDep x.2 d.1 = some e.dst)
    | none => true

/-- see `linksOk` -/
def othersOk {P S : Type} (sat : P → S → Bool) (g : Graph Str P S) : Bool :=
  g.nodes.zipIdx.all fun x => x.1.reqs.all fun r => (g.ancestors x.2).all fun j => match g.child? j r.1 with
    | some c => decide (g.resolveDep x.2 r.1 = some c) || (match g.pkg? c with | some p => !sat p r.2.1 | none => true)
    | none => true

theorem linksOk_loads {N : Type} [DecidableEq N] {g : Graph N P S} (ho : g.Ord) (h : linksOk g = true) : LinksLoad g := by
  rintro i n e ⟨nd, k, h1, h2, h3⟩
  rw [linksOk, List.all_eq_true] at h
  have := h (nd, i) (List.mem_zipIdx_iff_getElem?.2 h1)
  rw [List.all_eq_true] at this
  have := this (n, k) (IMap.mem_of_get? h2)
  dsimp only at this
  rw [h3] at this
  exact (resolveDep_iff ho _ _ _).1 (of_decide_eq_true this)

theorem othersOk_one {env : Env Str P S} {g : Graph Str P S} (ho : g.Ord) (h : othersOk env.sat g = true) : Unambiguous env g := by
  rintro i n spec ty c ⟨nd, h1, h2⟩ hl j jn c' cn' hw hj hc' hcn' hne
  rw [othersOk, List.all_eq_true] at h
  have := h (nd, i) (List.mem_zipIdx_iff_getElem?.2 h1)
  rw [List.all_eq_true] at this
  have := this (n, spec, ty) (IMap.mem_of_get? h2)
  rw [List.all_eq_true] at this
  have := this j ((mem_ancestors ho _ _).2 hw)
  dsimp only at this
  rw [child?_eq hj, hc'] at this
  have hres := (resolveDep_iff ho _ _ _).2 hl
  simp only [hres, pkg?, hcn', Option.map_some, Bool.or_eq_true, decide_eq_true_eq, Option.some.injEq, Bool.not_eq_true'] at this
  rcases this with h | h
  · exact absurd h.symm hne
  · exact h

namespace ExL

/-- the project wants e and n@1, e wants n@2 -/
def envC : E := mkEnv [((['e'], ['^']), 1, [(['n'], ['2'])]), ((['n'], ['1']), 1, []), ((['n'], ['2']), 2, [])]

def treeC : St := final envC none root [.pop, .pull, .pull, .complete (['e'], ['^']), .complete (['n'], ['1']), .deliver, .pop, .pop, .pull,
  .complete (['n'], ['2']), .deliver, .pop]

theorem runC_ok : ok (rrun envC none (rinit root) [.pop, .pull, .pull, .complete (['e'], ['^']), .complete (['n'], ['1']), .deliver, .pop,
  .pop, .pull, .complete (['n'], ['2']), .deliver, .pop]) = true := by decide +kernel

theorem root_okC : IsRoot envC root := ⟨[], (['p'], 0), { deps := [(['e'], ['^']), (['n'], ['1'])] }, by rfl⟩

/-- the tree: e, its own n@2, and n@1 -/
example : treeC.graph.nodes.length = 4 ∧ treeC.graph.nodePath 3 = [['e'], ['n']] ∧ treeC.graph.pkg? 3 = some (['n'], 2) := by
  decide +kernel

/-- this tree meets the hypotheses of `C16_partial`, so resolving again gives the same tree -/
example {l l' : Lockfile Nat Nat} (hl : toLockfile view treeC.graph = some l) (hrd : Lockfile.fromKdl codec (l.toKdl codec) = .ok l')
    {s : St} (h : RReach { envC with fetch := fun _ => none, concurrency := 1 } (some (l'.tree toPackage)) root s) (hd : s.done = true) :
    ∀ π p, Installed s.graph π p ↔ Installed treeC.graph π p := by
  have ho := ((final_reach runC_ok).sinv root_okC).pinv.ginv.ord
  have hnd : ∀ i nd, treeC.graph.nodes[i]? = some nd → i ≠ 0 → nd ∈ treeC.graph.nodes.drop 1 := by
    intro i nd hi h0
    obtain ⟨j, rfl⟩ : ∃ j, i = j + 1 := ⟨i - 1, by omega⟩
    rw [show j + 1 = 1 + j from Nat.add_comm _ _, ← List.getElem?_drop] at hi
    exact List.mem_of_getElem? hi
  have hall : ∀ nd ∈ treeC.graph.nodes.drop 1, (∀ c ∈ nd.name, c ≠ '/') ∧ nd.name.head? ≠ some '@' ∧ nd.name = nd.pkg.1 := by
    decide +kernel
  have hreq : ∀ nd ∈ treeC.graph.nodes.drop 1, ∀ r ∈ nd.reqs, r.1 = r.2.1.1 := by decide +kernel
  refine ((C16_partial (v := view) (c := codec) (nm := []) (pk := (['p'], 0)) (m := { deps := [(['e'], ['^']), (['n'], ['1'])] }) rfl (by unfold Manifest.Proper; decide)
    (final_reach runC_ok) (by decide +kernel) (linksOk_loads ho (by decide +kernel)) ?_ (othersOk_one ho (by decide +kernel)) ?_ ?_ ?_ hl hrd
    (fun _ => none) 1 h).2.2 hd).1
  · rintro - - ⟨n, t⟩ - p m' - hf
    simp only [envC, mkEnv, List.lookup] at hf
    split at hf
    · rename_i h; have h := eq_of_beq h; cases h; cases hf; rfl
    · split at hf
      · rename_i h; have h := eq_of_beq h; cases h; cases hf; rfl
      · split at hf
        · rename_i h; have h := eq_of_beq h; cases h; cases hf; rfl
        · cases hf
  · intro i nd h0 hi
    obtain ⟨h1, h2, _⟩ := hall nd (hnd i nd hi h0)
    exact .inl ⟨fun hc => h1 _ hc rfl, h2⟩
  · rintro i n ⟨n', t⟩ ty h0 ⟨nd, hi, hr⟩
    have := hreq nd (hnd i nd hi h0) _ (IMap.mem_of_get? hr)
    have : n = n' := this
    subst this
    rfl
  · rintro i ⟨nm, ⟨pn, pv⟩, rq, pa, ch, de⟩ n h0 hi hname ⟨h1, h2, h3⟩
    obtain ⟨_, _, h4⟩ := hall _ (hnd i _ hi h0)
    have h4 : nm = pn := h4
    have hname : n.name = nm := hname
    unfold toPackage
    rw [h2, hname, h4]
    rfl

/-- its lockfile is one that settles everything, as in `C75_follows` -/
example {l l' : Lockfile Nat Nat} (hl : toLockfile view treeC.graph = some l) (hrd : Lockfile.fromKdl codec (l.toKdl codec) = .ok l') :
    Settled { envC with fetch := fun _ => none, concurrency := 1 } { deps := [(['e'], ['^']), (['n'], ['1'])] } (l'.tree toPackage) := by
  have ho := ((final_reach runC_ok).sinv root_okC).pinv.ginv.ord
  have hnd : ∀ i nd, treeC.graph.nodes[i]? = some nd → i ≠ 0 → nd ∈ treeC.graph.nodes.drop 1 := by
    intro i nd hi h0
    obtain ⟨j, rfl⟩ : ∃ j, i = j + 1 := ⟨i - 1, by omega⟩
    rw [show j + 1 = 1 + j from Nat.add_comm _ _, ← List.getElem?_drop] at hi
    exact List.mem_of_getElem? hi
  have hall : ∀ nd ∈ treeC.graph.nodes.drop 1, (∀ c ∈ nd.name, c ≠ '/') ∧ nd.name.head? ≠ some '@' ∧ nd.name = nd.pkg.1 := by
    decide +kernel
  have hreq : ∀ nd ∈ treeC.graph.nodes.drop 1, ∀ r ∈ nd.reqs, r.1 = r.2.1.1 := by decide +kernel
  refine (relockable_lockfile (v := view) (c := codec) (nm := []) (pk := (['p'], 0)) (m := { deps := [(['e'], ['^']), (['n'], ['1'])] }) rfl (by unfold Manifest.Proper; decide)
    (final_reach runC_ok) (by decide +kernel) (linksOk_loads ho (by decide +kernel)) ?_ (othersOk_one ho (by decide +kernel)) ?_ ?_ ?_ hl hrd
    (fun _ => none) 1).settled ((final_reach runC_ok).sinv root_okC).pinv.ginv
  · rintro - - ⟨n, t⟩ - p m' - hf
    simp only [envC, mkEnv, List.lookup] at hf
    split at hf
    · rename_i h; have h := eq_of_beq h; cases h; cases hf; rfl
    · split at hf
      · rename_i h; have h := eq_of_beq h; cases h; cases hf; rfl
      · split at hf
        · rename_i h; have h := eq_of_beq h; cases h; cases hf; rfl
        · cases hf
  · intro i nd h0 hi
    obtain ⟨h1, h2, _⟩ := hall nd (hnd i nd hi h0)
    exact .inl ⟨fun hc => h1 _ hc rfl, h2⟩
  · rintro i n ⟨n', t⟩ ty h0 ⟨nd, hi, hr⟩
    have := hreq nd (hnd i nd hi h0) _ (IMap.mem_of_get? hr)
    have : n = n' := this
    subst this
    rfl
  · rintro i ⟨nm, ⟨pn, pv⟩, rq, pa, ch, de⟩ n h0 hi hname ⟨h1, h2, h3⟩
    obtain ⟨_, _, h4⟩ := hall _ (hnd i _ hi h0)
    have h4 : nm = pn := h4
    have hname : n.name = nm := hname
    unfold toPackage
    rw [h2, hname, h4]
    rfl

/-- the same project without n: e and its n@2 stay -/
example : ∀ n raw ty, Requires ({ deps := [(['e'], ['^'])] } : Manifest Str) true n raw ty →
    Requires { deps := [(['e'], ['^']), (['n'], ['1'])] } true n raw ty := by
  rintro n raw ty (⟨_, _, h⟩ | ⟨_, h, _⟩ | ⟨h1, h, h2, h3⟩)
  · cases h
  · cases h
  · exact .inr (.inr ⟨h1, List.mem_of_mem_head? (by cases h with | head => rfl | tail _ h => cases h), h2, h3⟩)

end ExL
end Oro
