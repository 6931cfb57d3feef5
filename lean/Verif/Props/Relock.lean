import Verif.Proofs.Relock
import Verif.Props.Resolver
/- C75 (and part of C16): resolving with a lockfile that settles everything. -/

set_option linter.unusedSectionVars false

namespace Oro
variable {N P S : Type} [DecidableEq N] [DecidableEq S]
open Graph

section
variable {env : Env N P S} {m : Manifest N} {lock : LockTree N P} {nm : N} {pk : P} {root : Node N P S} {s : RState N P S}

theorem Follows.installed (h : Follows env m lock s.graph) (hm : m.Proper) (hs : Settled env m lock) (hr : IsRoot env root)
    (hreach : RReach env (some lock) root s) (hd : s.done = true) {π : List N} (hn : Needed env m lock π) : ∃ i, LocatedAt s.graph i π := by
  have hg := (hreach.sinv hr).pinv.ginv
  induction hn with
  | project =>
    obtain ⟨nd, h0, _⟩ := hg.root
    exact ⟨0, .root h0⟩
  | @dep π π' n spec ty p _ hw hnear ih =>
    obtain ⟨i, hl⟩ := ih
    obtain ⟨nd, hn⟩ := ((locatedAt_iff hg.folderTree hg.ord).1 hl).1
    have hreq := (h.wants hm hs hg hn hl n spec ty).2 hw
    obtain ⟨e, hlk, hsrc, _⟩ := (C04_all_linked hr hreach hd).1 i n spec ty ⟨nd, hn, hreq⟩
    obtain ⟨nd', k, h1, h2, h3⟩ := id hlk
    obtain ⟨e', dn, h4, h5, h6, h7⟩ := hg.depReg i nd' n k h1 h2
    rw [h3] at h4; cases h4
    obtain ⟨π'', p', a, b⟩ := h.link e (List.mem_of_getElem? h3) dn π h6 (by rw [hsrc]; exact hl)
    rw [h7] at a
    rw [(hnear.fn a).1]
    exact ⟨e.dst, b⟩

/-- **C75**. Resolving with a lockfile that settles everything the project needs asks the registry for nothing, never fails,
can always go on until it is done, and then has installed exactly the needed packages of the lockfile, each at its place in
the lockfile; every link leads to the package that is nearest in the lockfile. -/
theorem C75_follows (hr : Node.new env.parse nm pk m true = some root) (hm : m.Proper) (hs : Settled env m lock)
    (h : RReach env (some lock) root s) :
    s.waiting = [] ∧
    (∀ ev r, rstep env (some lock) s ev = some r → ∃ s', r = .ok s') ∧
    (s.done = false → ∃ ev s', rstep env (some lock) s ev = some (.ok s')) ∧
    (∀ π p, π ≠ [] → Installed s.graph π p → Needed env m lock π ∧ ∃ m', Holds lock π p m') ∧
    (s.done = true → ∀ π p m', Needed env m lock π → Holds lock π p m' → π ≠ [] → Installed s.graph π p) ∧
    (∀ i n e π, Linked s.graph i n e → LocatedAt s.graph i π → ∃ π' p, Nearest lock π n π' p ∧ LocatedAt s.graph e.dst π') := by
  have hr' : IsRoot env root := ⟨nm, pk, m, hr⟩
  obtain ⟨hf, hq⟩ := h.follows hr hm hs
  have hsi := h.sinv hr'
  have hg := hsi.pinv.ginv
  have hev : ∀ ev r, rstep env (some lock) s ev = some r → ∃ s', r = .ok s' := by
    intro ev r he
    obtain ⟨s', e, _⟩ := hf.rstep hm hs hsi hq he
    exact ⟨s', e⟩
  refine ⟨?_, hev, ?_, ?_, ?_, ?_⟩
  · rw [waiting_eq, hq.chan, hq.fetches]; rfl
  · intro hd
    have : ∃ r, rstep env (some lock) s .pop = some r := by
      unfold RState.done at hd
      rw [hq.inFlight] at hd
      simp only [beq_self_eq_true, Bool.and_true] at hd
      cases hqq : s.q with
      | nil => rw [hqq] at hd; simp at hd
      | cons i q => exact ⟨_, by simp [rstep, popStep, hqq]; rfl⟩
    obtain ⟨r, hr2⟩ := this
    obtain ⟨s', rfl⟩ := hev _ _ hr2
    exact ⟨_, s', hr2⟩
  · rintro π p hne ⟨i, nd, hl, hn, rfl⟩
    have h0 : i ≠ 0 := by
      rintro rfl
      exact hne (located_fn hg hl (.root hn))
    obtain ⟨a, m', b, _⟩ := hf.node i nd π h0 hn hl
    exact ⟨a, m', b⟩
  · intro hd π p m' hn hh hne
    obtain ⟨i, hl⟩ := hf.installed hm hs hr' h hd hn
    obtain ⟨nd, hi⟩ := ((locatedAt_iff hg.folderTree hg.ord).1 hl).1
    have h0 : i ≠ 0 := by
      rintro rfl
      exact hne (located_fn hg hl (.root hi))
    obtain ⟨_, m'', b, _⟩ := hf.node i nd π h0 hi hl
    exact ⟨i, nd, hl, hi, (b.fn hh).1⟩
  · rintro i n e π ⟨nd, k, h1, h2, h3⟩ hl
    obtain ⟨e', dn, h4, h5, h6, h7⟩ := hg.depReg i nd n k h1 h2
    rw [h3] at h4; cases h4
    obtain ⟨π', p, a, b⟩ := hf.link e (List.mem_of_getElem? h3) dn π h6 (by rw [h5]; exact hl)
    rw [h7] at a
    exact ⟨π', p, a, b⟩

theorem nodes_le (hr : Node.new env.parse nm pk m true = some root) (hm : m.Proper) (hs : Settled env m lock)
    (h : RReach env (some lock) root s) : s.graph.nodes.length ≤ lock.length + 1 := by
  have hr' : IsRoot env root := ⟨nm, pk, m, hr⟩
  obtain ⟨hf, _⟩ := h.follows hr hm hs
  have hg := (h.sinv hr').pinv.ginv
  have hnd : ((List.range s.graph.nodes.length).map s.graph.nodePath).Nodup := by
    rw [List.nodup_map_iff_inj_on List.nodup_range]
    intro i hi j hj he
    have h1 := (locatedAt_iff hg.folderTree hg.ord (i := i)).2 ⟨⟨_, List.getElem?_eq_getElem (List.mem_range.1 hi)⟩, he⟩
    have h2 := (locatedAt_iff hg.folderTree hg.ord (i := j)).2 ⟨⟨_, List.getElem?_eq_getElem (List.mem_range.1 hj)⟩, rfl⟩
    exact locatedAt_inj hg.folderTree h1 h2
  have hsub : ((List.range s.graph.nodes.length).map s.graph.nodePath) ⊆ [] :: lock.keys := by
    intro π hπ
    obtain ⟨i, hi, rfl⟩ := List.mem_map.1 hπ
    have hi := List.mem_range.1 hi
    have hn := List.getElem?_eq_getElem hi
    by_cases h0 : i = 0
    · subst h0
      rw [nodePath_root hn]; simp
    · have hl := (locatedAt_iff hg.folderTree hg.ord (i := i)).2 ⟨⟨_, hn⟩, rfl⟩
      obtain ⟨_, m', ⟨ent, b, _⟩, _⟩ := hf.node i _ _ h0 hn hl
      exact List.mem_cons_of_mem _ (IMap.mem_keys_of_mem (IMap.mem_of_get? b))
  have := (List.subperm_of_subset hnd hsub).length_le
  simpa [IMap.keys] using this

/-- **C75**, termination: no run handles more packages than the lockfile has, and the project; and no run fails. -/
theorem C75_ends (hr : Node.new env.parse nm pk m true = some root) (hm : m.Proper) (hs : Settled env m lock)
    (evs : List (REvent S)) : (∀ e, rrun env (some lock) (rinit root) evs ≠ some (.error e)) ∧
    ∀ s', rrun env (some lock) (rinit root) evs = some (.ok s') → evs.length ≤ lock.length + 1 := by
  have hr' : IsRoot env root := ⟨nm, pk, m, hr⟩
  have gen : ∀ (evs : List (REvent S)) (s : RState N P S), RReach env (some lock) root s →
      (∀ e, rrun env (some lock) s evs ≠ some (.error e)) ∧
      ∀ s', rrun env (some lock) s evs = some (.ok s') → evs.length + s.graph.nodes.length + s'.q.length = s'.graph.nodes.length + s.q.length := by
    intro evs
    induction evs with
    | nil =>
      intro s _
      refine ⟨fun e he => (by simp [rrun] at he), fun s' he => ?_⟩
      simp only [rrun, Option.some.injEq, Except.ok.injEq] at he
      subst he; simp
    | cons ev evs ih =>
      intro s hs1
      obtain ⟨hf, hq⟩ := hs1.follows hr hm hs
      simp only [rrun]
      cases hst : rstep env (some lock) s ev with
      | none => exact ⟨fun e he => (by cases he), fun s' he => (by cases he)⟩
      | some r =>
        obtain ⟨s1, rfl, _, _, hc⟩ := hf.rstep hm hs (hs1.sinv hr') hq hst
        obtain ⟨a, b⟩ := ih s1 (.step ev hs1 hst)
        refine ⟨a, fun s' he => ?_⟩
        have := b s' he
        simp only [List.length_cons]
        omega
  obtain ⟨a, b⟩ := gen evs (rinit root) .init
  refine ⟨a, fun s' he => ?_⟩
  have h1 := b s' he
  have h2 := nodes_le hr hm hs (rrun_reach evs .init he)
  have h3 : (rinit root).graph.nodes.length = 1 := rfl
  have h4 : (rinit root).q.length = 1 := rfl
  omega

end

/-! ### removing requirements -/

section
variable {env : Env N P S} {m m' : Manifest N} {lock : LockTree N P}

theorem Wants.fewer (hsub : ∀ n raw ty, Requires m' true n raw ty → Requires m true n raw ty) {π : List N} {n : N} {spec : S} {ty : DepType}
    (h : Wants env m' lock π n spec ty) : Wants env m lock π n spec ty := by
  obtain ⟨raw, h1, ⟨h2, h3⟩ | h2⟩ := h
  · exact ⟨raw, h1, .inl ⟨h2, hsub n raw ty h3⟩⟩
  · exact ⟨raw, h1, .inr h2⟩

theorem Needed.fewer (hsub : ∀ n raw ty, Requires m' true n raw ty → Requires m true n raw ty) {π : List N} (h : Needed env m' lock π) :
    Needed env m lock π := by
  induction h with
  | project => exact .project
  | dep _ hw hn ih => exact .dep ih (hw.fewer hsub) hn

theorem Settled.fewer (h : Settled env m lock) (hsub : ∀ n raw ty, Requires m' true n raw ty → Requires m true n raw ty) :
    Settled env m' lock where
  fits := by
    intro π n spec ty hn hw
    obtain ⟨π', p, a, b, c⟩ := h.fits π n spec ty (hn.fewer hsub) (hw.fewer hsub)
    exact ⟨π', p, a, b, fun up p' m'' h1 h2 => c up p' m'' h1 (h2.fewer hsub)⟩
  paths := fun π ent hn => h.paths π ent (hn.fewer hsub)
  reads := fun π p m'' hn => h.reads π p m'' (hn.fewer hsub)

/-- **C75**, removing requirements: if the lockfile settles the project, and then some of the project's requirements are taken
away, resolving again asks for nothing and leaves every package that is still needed where it was, with its version; what is
not needed any more is gone. -/
theorem C75_removed {nm : N} {pk : P} {root : Node N P S} {s : RState N P S} (hs : Settled env m lock) (hm' : m'.Proper)
    (hsub : ∀ n raw ty, Requires m' true n raw ty → Requires m true n raw ty)
    (hr : Node.new env.parse nm pk m' true = some root) (h : RReach env (some lock) root s) :
    s.waiting = [] ∧ (s.done = true → ∀ π p, π ≠ [] →
      (Installed s.graph π p ↔ Needed env m' lock π ∧ ∃ m', Holds lock π p m')) := by
  obtain ⟨a, _, _, b, c, _⟩ := C75_follows hr hm' (hs.fewer hsub) h
  exact ⟨a, fun hd π p hne => ⟨b π p hne, fun ⟨x, m'', y⟩ => c hd π p m'' x y hne⟩⟩

end
end Oro
