import Verif.Proofs.AgainIso
/- C81: `oro apply` is idempotent. -/

set_option linter.unusedSectionVars false

namespace Oro
namespace Again
open Graph
open Hoisted (Entry Tree Pkgs Disk)

variable {P S V I : Type} [DecidableEq S] [DecidableEq V] [DecidableEq I]
variable {env : Env Str P S} {lock : Option (LockTree Str P)} {root : Node Str P S} {s0 s : RState Str P S}
  {v : LockView P S V I} {c : Codec V I} {nm : Str} {p0 : P} {m : Manifest Str} {toPackage : LNode V I → Option (Option P)} {l l' : Lockfile V I}
  {pk : Pkgs P} {w : Str → P × Manifest Str}

/-- C81, partially: resolving. After a resolve whose tree is sound – what requirements load is what they were linked to (C01) – and
in which no requirement is also met by another package around: resolving again from the lockfile that was written, whatever the
registry says now, asks for nothing, never fails, and gives the same packages at the same places, linked in the same way; and the
same lockfile is written. -/
theorem C81_resolve_partial (hr : Node.new env.parse nm p0 m true = some root) (hm : m.Proper)
    (h0 : RReach env lock root s0) (hd0 : s0.done = true) (hll : LinksLoad s0.graph)
    (hans : Answered env s0.graph) (hone : Unambiguous env s0.graph)
    (hb : ReadsBack env v toPackage s0.graph)
    (hl : toLockfile v s0.graph = some l) (hrd : Lockfile.fromKdl c (l.toKdl c) = .ok l')
    (fetch : S → Option (P × Manifest Str)) (concurrency : Nat)
    (h : RReach { env with fetch := fetch, concurrency := concurrency } (some (l'.tree toPackage)) root s) :
    s.waiting = [] ∧
    (∀ ev r, rstep { env with fetch := fetch, concurrency := concurrency } (some (l'.tree toPackage)) s ev = some r → ∃ s', r = .ok s') ∧
    (s.done = true → Alike s0.graph s.graph ∧ ∃ l2, toLockfile v s.graph = some l2 ∧ l2.toKdl c = l.toKdl c) := by
  obtain ⟨h1, h2, _⟩ := C16_partial hr hm h0 hd0 hll hans hone hb.names hb.specs hb.packages hl hrd fetch concurrency h
  refine ⟨h1, h2, fun hd => ?_⟩
  obtain ⟨h3, l2, h4, h5⟩ := alike_again hr hm h0 hd0 hll hans hone hb.names hb.specs hb.packages hl hrd fetch concurrency h hd
  exact ⟨h3, l2, h4, C14_canonical c (toLockfile_wf h4) (toLockfile_wf hl) h5⟩

theorem sameNode_trans {a b d : LNode V I} (h : SameNode a b) (h' : SameNode d b) : SameNode a d := by
  obtain ⟨⟨a1, a2, a3, a4, a5⟩, a6, a7⟩ := h
  obtain ⟨⟨b1, b2, b3, b4, b5⟩, b6, b7⟩ := h'
  exact ⟨⟨a1.trans b1.symm, a2.trans b2.symm, a3.trans b3.symm, a4.trans b4.symm, fun ty k => (a5 ty k).trans (b5 ty k).symm⟩,
    a6.trans b6.symm, a7.trans b7.symm⟩

/-- the meta file written for one tree is that of the other -/
theorem recorded_same {g g' : Graph Str P S} {l2 : Lockfile V I} {mf : Option (IMap Str (LNode V I))} (hl : toLockfile v g = some l)
    (h : Hoisted.Recorded v g mf) (hl2 : toLockfile v g' = some l2) (hs : SameLockfile l2 l) : Hoisted.Recorded v g' mf := by
  obtain ⟨l0, rec, h1, h2, h3, h4⟩ := h
  rw [hl] at h1; cases h1
  refine ⟨l2, rec, hl2, h2, h3, fun k => ?_⟩
  rcases h4 k with ⟨a1, a2⟩ | ⟨a, b, a1, a2, a3⟩ <;> rcases hs.packages k with ⟨b1, b2⟩ | ⟨x, y, b1, b2, b3⟩
  · exact .inl ⟨a1, b1⟩
  · rw [a2] at b2; cases b2
  · rw [a2] at b2; cases b2
  · rw [a2] at b2; cases b2
    exact .inr ⟨a, x, a1, b1, sameNode_trans a3 b3⟩

/-- C81, partially: hoisted linker. After a first `oro apply` (whose tree is sound and unambiguous), a second one, from the lockfile the
first wrote: nothing is unpacked, no script is due, nothing in node_modules changes, commands apart, and the same lockfile is written. -/
theorem C81_hoisted_partial (hr : Node.new env.parse nm p0 m true = some root) (hp : Works.Plain env lock m pk)
    (h0 : RReach env lock root s0) (hd0 : s0.done = true) (hll : LinksLoad s0.graph)
    (hans : Answered env s0.graph) (hone : Unambiguous env s0.graph)
    (hb : ReadsBack env v toPackage s0.graph)
    (hl : toLockfile v s0.graph = some l) (hrd : Lockfile.fromKdl c (l.toKdl c) = .ok l')
    (d : Disk V I) (hf : Hoisted.Fresh d) :
    ∃ r0, Hoisted.applyTree pk v s0.graph d = some r0 ∧ Hoisted.Installed pk s0.graph r0.1.tree ∧
      ∀ (fetch : S → Option (P × Manifest Str)) (concurrency : Nat) (s : RState Str P S),
        RReach { env with fetch := fetch, concurrency := concurrency } (some (l'.tree toPackage)) root s → s.done = true →
        (∃ l2, toLockfile v s.graph = some l2 ∧ l2.toKdl c = l.toKdl c) ∧
        ∃ r1, Hoisted.applyTree pk v s.graph r0.1 = some r1 ∧ r1.2.count = 0 ∧ r1.2.pending = [] ∧
          (∀ p, ¬ Hoisted.InBin p → r1.1.tree p = r0.1.tree p) ∧ Hoisted.Recorded v s.graph r1.1.metaFile := by
  have hr0 : IsRoot env root := ⟨nm, p0, m, hr⟩
  have hi := Works.installable hr h0 hp
  obtain ⟨r0, h1, h2, h3⟩ := Hoisted.C33_fresh pk v s0.graph hi d hf
  refine ⟨r0, h1, h2, fun fetch concurrency s h hd => ?_⟩
  have hg := (h.sinv (env := { env with fetch := fetch, concurrency := concurrency }) ⟨nm, p0, m, hr⟩).pinv.ginv
  obtain ⟨ha, l2, h4, h5⟩ := alike_again hr hp.project.1 h0 hd0 hll hans hone hb.names hb.specs hb.packages hl hrd fetch concurrency h hd
  refine ⟨⟨l2, h4, C14_canonical c (toLockfile_wf h4) (toLockfile_wf hl) h5⟩, ?_⟩
  exact (Hoisted.C33_again pk v s.graph (ha.installable hi hg.folderTree hg.ord) r0.1 (ha.installed hi.tree hi.order hg.folderTree hg.ord h2)
    (recorded_same hl h3 h4 h5)).2

/-- C81 is false of the code for commands (hoisted linker): the second `oro apply` removes every command of the project. -/
theorem C81_hoisted_fails (hr : Node.new env.parse nm p0 m true = some root) (hp : Works.Plain env lock m pk)
    (h0 : RReach env lock root s0) (hd0 : s0.done = true) (hll : LinksLoad s0.graph)
    (hans : Answered env s0.graph) (hone : Unambiguous env s0.graph)
    (hb : ReadsBack env v toPackage s0.graph)
    (hl : toLockfile v s0.graph = some l) (hrd : Lockfile.fromKdl c (l.toKdl c) = .ok l')
    (d : Disk V I) (hf : Hoisted.Fresh d) :
    ∃ r0, Hoisted.applyTree pk v s0.graph d = some r0 ∧
      ∀ (fetch : S → Option (P × Manifest Str)) (concurrency : Nat) (s : RState Str P S),
        RReach { env with fetch := fetch, concurrency := concurrency } (some (l'.tree toPackage)) root s → s.done = true →
        ∃ r1, Hoisted.applyTree pk v s.graph r0.1 = some r1 ∧ ∀ x, r1.1.tree (Hoisted.binName :: x) = none := by
  have hr0 : IsRoot env root := ⟨nm, p0, m, hr⟩
  have hi := Works.installable hr h0 hp
  obtain ⟨r0, h1, h2, h3⟩ := Hoisted.C33_fresh pk v s0.graph hi d hf
  refine ⟨r0, h1, fun fetch concurrency s h hd => ?_⟩
  have hg := (h.sinv (env := { env with fetch := fetch, concurrency := concurrency }) ⟨nm, p0, m, hr⟩).pinv.ginv
  obtain ⟨ha, l2, h4, h5⟩ := alike_again hr hp.project.1 h0 hd0 hll hans hone hb.names hb.specs hb.packages hl hrd fetch concurrency h hd
  exact Hoisted.C35_fails pk v s.graph (ha.installable hi hg.folderTree hg.ord) r0.1 (ha.installed hi.tree hi.order hg.folderTree hg.ord h2)
    (recorded_same hl h3 h4 h5)

/-- C81, partially: isolated linker. After a first `oro apply` (whose tree is sound and unambiguous), a second one, from the lockfile
the first wrote and with the meta file it left: no script is due, nothing at all in node_modules changes, commands included, and
the same lockfile is written. -/
theorem C81_isolated_partial {e : Iso.Env} (hr : Node.new env.parse nm p0 m true = some root) (hp : Works.Plain env lock m pk)
    (hps : Works.PlainStore env lock pk e s0.graph) (hpc : Iso.PlainCommands pk s0.graph)
    (h0 : RReach env lock root s0) (hd0 : s0.done = true) (hll : LinksLoad s0.graph)
    (hans : Answered env s0.graph) (hone : Unambiguous env s0.graph)
    (hb : ReadsBack env v toPackage s0.graph)
    (hl : toLockfile v s0.graph = some l) (hrd : Lockfile.fromKdl c (l.toKdl c) = .ok l')
    (d : Disk V I) (hf : Iso.Fresh d) (order : List Nat) (ho : Iso.Order s0.graph order) :
    ∃ z0, Iso.apply pk e s0.graph order d = some z0 ∧ Iso.Installed pk e s0.graph z0.1 ∧
      ∀ (fetch : S → Option (P × Manifest Str)) (concurrency : Nat) (s : RState Str P S),
        RReach { env with fetch := fetch, concurrency := concurrency } (some (l'.tree toPackage)) root s → s.done = true →
        (∃ l2, toLockfile v s.graph = some l2 ∧ l2.toKdl c = l.toKdl c) ∧
        ∀ (written : IMap Str (LNode V I)) (order' : List Nat), Iso.Order s.graph order' →
          ∃ y z1, Iso.install pk e s.graph order' ⟨z0.1, some written⟩ = some y ∧ y.rebuild = [] ∧ y.bins = [] ∧
            Iso.apply pk e s.graph order' ⟨z0.1, some written⟩ = some z1 ∧ z1.1 = z0.1 := by
  have hr0 : IsRoot env root := ⟨nm, p0, m, hr⟩
  have hi := Works.installable_store hr h0 hp hps
  obtain ⟨z0, _, h1, _, _⟩ := Iso.apply_fresh pk e s0.graph hi hpc d hf order ho
  obtain ⟨h2, h3⟩ := Iso.fresh_bins hi hpc d hf order ho z0 h1
  refine ⟨z0, h1, h2, fun fetch concurrency s h hd => ?_⟩
  have hr1 : IsRoot { env with fetch := fetch, concurrency := concurrency } root := ⟨nm, p0, m, hr⟩
  have hg := (h.sinv hr1).pinv.ginv
  obtain ⟨ha, l2, h4, h5⟩ := alike_again hr hp.project.1 h0 hd0 hll hans hone hb.names hb.specs hb.packages hl hrd fetch concurrency h hd
  refine ⟨⟨l2, h4, C14_canonical c (toLockfile_wf h4) (toLockfile_wf hl) h5⟩, fun written order' ho' => ?_⟩
  have hi' := ha.installable_iso hi hg.folderTree hg.ord ⟨fun a hm => (by
      obtain ⟨k, hk⟩ := List.mem_iff_getElem?.1 hm
      obtain ⟨_, dn, _, hdn, _⟩ := hg.edgeReg k a hk
      exact ⟨Works.dst_ne_zero hr1 h a hm, dn, hdn⟩), fun a hm => (by
      obtain ⟨k, hk⟩ := List.mem_iff_getElem?.1 hm
      obtain ⟨sn, _, hsn, _⟩ := hg.edgeReg k a hk
      exact ⟨sn, hsn⟩), Works.single_names hg⟩
  refine Iso.apply_again hi' ⟨z0.1, some written⟩ (ha.installed_iso hi hi' h2) (by simp) ?_ order' ho'
  intro p x hpb hx
  obtain ⟨⟨i, i0, nd, hn⟩, k, r, hk, rfl⟩ := h3 p x hpb hx
  refine ⟨?_, ?_⟩
  · obtain ⟨j, nd', j1, j0, _⟩ := ha.home (v := e) hi.tree hi.order hg.folderTree hg.ord hn i0
    exact ⟨j, j0, nd', j1⟩
  · rcases hk with rfl | ⟨k0, kn, hkn⟩
    · exact ⟨0, r, .inl rfl, rfl⟩
    · obtain ⟨j, nd', j1, j0, _, _, _, j2⟩ := ha.home (v := e) hi.tree hi.order hg.folderTree hg.ord hkn k0
      exact ⟨j, r, .inr ⟨j0, nd', j1⟩, by rw [nm_home (by simp [j0, k0]) j2]⟩

/-! ### projects without version conflicts -/

/-- without version conflicts the tree is sound and unambiguous -/
theorem agreed_sound (hr : Node.new env.parse nm p0 m true = some root) (hm : m.Proper) (ha : Agreed env lock m w) (h0 : RReach env lock root s0) :
    LinksLoad s0.graph ∧ Unambiguous env s0.graph := by
  have hr0 : IsRoot env root := ⟨nm, p0, m, hr⟩
  have hg := (h0.sinv hr0).pinv.ginv
  refine h0.flat hr0 ?_
  have key : ∀ (i : Nat) (a : Node Str P S), i ≠ 0 → s0.graph.nodes[i]? = some a → LocatedAt s0.graph i [a.name] := by
    intro i a i0 hi
    obtain ⟨π, hπ⟩ := located_exists hg (lt_of_get hi)
    obtain ⟨n, _, h1, _⟩ := (C76_flat hr hm ha h0).2.2.2.1 π a.pkg (located_ne hπ i0) ⟨i, a, hπ, hi, rfl⟩
    obtain ⟨σ, a', h2, h3⟩ := Hoisted.located_snoc hπ i0
    rw [hi] at h2; cases h2
    rw [h1] at h3
    have : σ = [] := by
      have := congrArg List.length h3
      simp at this
      simpa using this
    subst this
    rw [h1, h3] at hπ
    exact hπ
  intro i j a b i0 j0 hi hj hn
  have h1 := key i a i0 hi
  rw [hn] at h1
  exact locatedAt_inj hg.folderTree h1 (key j b j0 hj)

/-- C81 for projects without version conflicts, hoisted linker: nothing is assumed about the tree or the order of responses. -/
theorem C81_hoisted_agreed_partial (hr : Node.new env.parse nm p0 m true = some root) (hp : Works.Plain env lock m pk) (ha : Agreed env lock m w)
    (h0 : RReach env lock root s0) (hd0 : s0.done = true)
    (hans : Answered env s0.graph)
    (hb : ReadsBack env v toPackage s0.graph)
    (hl : toLockfile v s0.graph = some l) (hrd : Lockfile.fromKdl c (l.toKdl c) = .ok l')
    (d : Disk V I) (hf : Hoisted.Fresh d) :
    ∃ r0, Hoisted.applyTree pk v s0.graph d = some r0 ∧ Hoisted.Installed pk s0.graph r0.1.tree ∧
      ∀ (fetch : S → Option (P × Manifest Str)) (concurrency : Nat) (s : RState Str P S),
        RReach { env with fetch := fetch, concurrency := concurrency } (some (l'.tree toPackage)) root s → s.done = true →
        (∃ l2, toLockfile v s.graph = some l2 ∧ l2.toKdl c = l.toKdl c) ∧
        ∃ r1, Hoisted.applyTree pk v s.graph r0.1 = some r1 ∧ r1.2.count = 0 ∧ r1.2.pending = [] ∧
          (∀ p, ¬ Hoisted.InBin p → r1.1.tree p = r0.1.tree p) ∧ Hoisted.Recorded v s.graph r1.1.metaFile := by
  obtain ⟨hll, hone⟩ := agreed_sound hr hp.project.1 ha h0
  exact C81_hoisted_partial hr hp h0 hd0 hll hans hone hb hl hrd d hf

/-- C81 for projects without version conflicts, isolated linker. -/
theorem C81_isolated_agreed {e : Iso.Env} (hr : Node.new env.parse nm p0 m true = some root) (hp : Works.Plain env lock m pk)
    (ha : Agreed env lock m w) (hps : Works.PlainStore env lock pk e s0.graph) (hpc : Iso.PlainCommands pk s0.graph)
    (h0 : RReach env lock root s0) (hd0 : s0.done = true)
    (hans : Answered env s0.graph)
    (hb : ReadsBack env v toPackage s0.graph)
    (hl : toLockfile v s0.graph = some l) (hrd : Lockfile.fromKdl c (l.toKdl c) = .ok l')
    (d : Disk V I) (hf : Iso.Fresh d) (order : List Nat) (ho : Iso.Order s0.graph order) :
    ∃ z0, Iso.apply pk e s0.graph order d = some z0 ∧ Iso.Installed pk e s0.graph z0.1 ∧
      ∀ (fetch : S → Option (P × Manifest Str)) (concurrency : Nat) (s : RState Str P S),
        RReach { env with fetch := fetch, concurrency := concurrency } (some (l'.tree toPackage)) root s → s.done = true →
        (∃ l2, toLockfile v s.graph = some l2 ∧ l2.toKdl c = l.toKdl c) ∧
        ∀ (written : IMap Str (LNode V I)) (order' : List Nat), Iso.Order s.graph order' →
          ∃ y z1, Iso.install pk e s.graph order' ⟨z0.1, some written⟩ = some y ∧ y.rebuild = [] ∧ y.bins = [] ∧
            Iso.apply pk e s.graph order' ⟨z0.1, some written⟩ = some z1 ∧ z1.1 = z0.1 := by
  obtain ⟨hll, hone⟩ := agreed_sound hr hp.project.1 ha h0
  exact C81_isolated_partial hr hp hps hpc h0 hd0 hll hans hone hb hl hrd d hf order ho

end Again
end Oro
