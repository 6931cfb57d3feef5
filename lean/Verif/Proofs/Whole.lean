import Verif.Spec.Whole
import Verif.Proofs.Cli
import Verif.Props.Again
/- The commands as a whole: what a successful run did. -/

set_option linter.unusedSectionVars false

namespace Oro
namespace Whole
open Hoisted (Tree Pkgs Disk)
open Cli

variable {P S V I J : Type} [DecidableEq S] [DecidableEq V] [DecidableEq I]

theorem quiet_event {o : Opts} {k : Setting P S V I} (st : Steps Nm (Option KDoc) J (Manifest Str) (Graph Str P S))
    (hs : ∀ g e n, st.script g e n = runScripts k e n) (g : Graph Str P S) (e : Event) (w : World Nm (Option KDoc) J)
    (hq : Quiet o k ∨ w.nm.rebuild = []) :
    maybeEvent o st g e w = ({ w with ran := if o.scripts then w.ran ++ [e] else w.ran }, true) := by
  unfold maybeEvent
  cases ho : o.scripts with
  | false => simp
  | true =>
    simp only [if_true, runEvent, hs, runScripts]
    split
    · rfl
    · rename_i hne
      rcases hq with (hq | hq) | hq
      · rw [ho] at hq; cases hq
      · simp [hq]
      · exact absurd hq hne

/-- the events of a run -/
def events (o : Opts) : List Event := if o.scripts then [.preinstall, .install, .postinstall] else []

theorem quiet_rebuild {o : Opts} {k : Setting P S V I} (st : Steps Nm (Option KDoc) J (Manifest Str) (Graph Str P S))
    (hs : ∀ g e n, st.script g e n = runScripts k e n) (g : Graph Str P S) (w : World Nm (Option KDoc) J)
    (hq : Quiet o k ∨ (w.nm.rebuild = [] ∧ (st.linkBins g w.nm).1.rebuild = [])) :
    rebuild o st g w = if (st.linkBins g w.nm).2 then ({ w with nm := (st.linkBins g w.nm).1, ran := w.ran ++ events o }, true)
      else ({ w with nm := (st.linkBins g w.nm).1, ran := if o.scripts then w.ran ++ [.preinstall] else w.ran }, false) := by
  unfold rebuild
  rw [quiet_event st hs _ _ _ (hq.imp id (·.1)), andThen_true rfl]
  simp only [stepLink]
  cases hl : (st.linkBins g w.nm).2 with
  | false => simp [andThen]
  | true =>
    have hq' := hq.imp id (·.2)
    simp only [andThen, if_true]
    rw [quiet_event st hs _ _ _ hq']
    simp only [if_true]
    rw [quiet_event st hs _ _ _ hq']
    unfold events
    cases o.scripts <;> simp

theorem rrun_done {k : Setting P S V I} {sch : List (REvent S)} {m : Manifest Str} {locked : Bool} {file : Option KDoc} {g : Graph Str P S}
    (h : resolve k sch m locked file = some g) :
    ∃ root s, Node.new k.env.parse [] (k.rootPkg m) m true = some root ∧
      RReach k.env ((lockOf k.c file).map (·.tree k.toPackage)) root s ∧ s.done = true ∧ s.graph = g ∧
      finish k.v locked (lockOf k.c file) g = some g := by
  unfold resolve at h
  obtain ⟨root, h1, h2⟩ := Option.bind_eq_some_iff.1 h
  split at h2
  · rename_i s hs
    split at h2
    · rename_i hd
      have hg : s.graph = g := by
        unfold finish at h2
        split at h2
        · split at h2
          · obtain ⟨l', _, h3⟩ := Option.bind_eq_some_iff.1 h2
            split at h3
            · cases h3; rfl
            · cases h3
          · cases h2; rfl
        · cases h2; rfl
      exact ⟨root, s, h1, rrun_reach _ .init hs, hd, hg, by rw [hg] at h2; exact h2⟩
    · cases h2
  · cases h2

/-- what a successful apply leaves -/
def After (k : Setting P S V I) (o : Opts) (w w' : World Nm (Option KDoc) J) (t : Tree) (l : Lockfile V I) : Prop :=
  w'.metaFile = .good ∧ w'.nm.tree = t ∧ w'.nm.doc = l.toKdl k.c ∧ w'.lock = (if o.lockfile then some (l.toKdl k.c) else w.lock) ∧
    w'.pkg = w.pkg ∧ w'.ran = w.ran ++ events o

theorem execute_hoisted {o : Opts} {k : Setting P S V I} (ha : o.apply = true) (hlo : o.lockfileOnly = false)
    (sch : List (REvent S)) (m : Manifest Str) (w : World Nm (Option KDoc) J) {g : Graph Str P S}
    (hr : resolve k sch m o.locked w.lock = some g) :
    (∀ r l, Hoisted.applyTree k.pk k.v g (disk k.c (loadActual w.metaFile) w.nm) = some r → toLockfile k.v g = some l →
      (Quiet o k ∨ r.2.pending = []) →
      ∃ w', execute o (hoisted k sch) m w = (w', true) ∧ After k o w w' r.1.tree l ∧ w'.nm.rebuild = r.2.pending) ∧
    ((execute o (hoisted (J := J) k sch) m w).2 = true →
      ∃ r l, Hoisted.applyTree k.pk k.v g (disk k.c (loadActual w.metaFile) w.nm) = some r ∧ toLockfile k.v g = some l) := by
  have hex : execute o (hoisted k sch) m w = andThen (stepInstall o (hoisted k sch) g (looked w)) (stepLock o (hoisted k sch) g) := by
    unfold execute
    rw [if_pos ha]
    have : (hoisted (J := J) k sch).resolve m o.locked w.lock (loadActual w.metaFile) w.nm = some g := hr
    rw [this]
  rw [hex]
  unfold stepInstall
  rw [if_neg (by simp [hlo])]
  simp only [stepPrune]
  rw [andThen_true (a := (_, ((hoisted (J := J) k sch).prune g (looked w).metaFile (looked w).nm).2)) rfl]
  simp only [stepExtract]
  cases hx : Hoisted.extractAll k.pk g (Hoisted.prune k.v g (disk k.c (loadActual w.metaFile) w.nm)).tree with
  | none =>
    refine ⟨fun r l h _ _ => ?_, fun h => ?_⟩
    · simp [Hoisted.applyTree, Hoisted.install, hx] at h
    · exfalso
      simp [hoisted, looked, hx, andThen] at h
  | some x =>
    cases hl : toLockfile k.v g with
    | none =>
      refine ⟨fun r l _ h _ => (by cases h), fun h => ?_⟩
      exfalso
      simp [hoisted, looked, hx, document, hl, andThen] at h
    | some l =>
      have happ : Hoisted.applyTree k.pk k.v g (disk k.c (loadActual w.metaFile) w.nm) =
          some (⟨Hoisted.linkBins k.pk g x.pending x.tree, some l.packages⟩, x) := by
        simp [Hoisted.applyTree, Hoisted.install, hx, hl]
      refine ⟨fun r l' h h' hq => ?_, fun _ => ⟨_, _, happ, rfl⟩⟩
      rw [happ] at h
      cases h
      cases h'
      have he : (hoisted (J := J) k sch).extract g ((hoisted (J := J) k sch).prune g (looked w).metaFile (looked w).nm).1.1
          ((hoisted (J := J) k sch).prune g (looked w).metaFile (looked w).nm).1.2 =
          ((.good, { tree := x.tree, doc := l.toKdl k.c, rebuild := x.pending, bins := x.pending }), true) := by
        simp [hoisted, looked, hx, document, hl]
      simp only [he]
      have hlb : (hoisted (J := J) k sch).linkBins g { tree := x.tree, doc := l.toKdl k.c, rebuild := x.pending, bins := x.pending } =
          ({ tree := Hoisted.linkBins k.pk g x.pending x.tree, doc := l.toKdl k.c, rebuild := x.pending, bins := x.pending }, true) := rfl
      rw [andThen_true (a := (_, true)) rfl, quiet_rebuild (k := k) _ (fun _ _ _ => rfl) _ _ (hq.imp id fun h => ⟨h, h⟩)]
      simp only [hlb]
      rw [if_pos trivial, andThen_true rfl]
      unfold stepLock
      cases hof : o.lockfile with
      | false => exact ⟨_, rfl, ⟨rfl, rfl, rfl, by simp [hof, looked], rfl, rfl⟩, rfl⟩
      | true =>
        refine ⟨_, rfl, ⟨rfl, rfl, rfl, ?_, rfl, rfl⟩, rfl⟩
        simp [hoisted, document, hl, hof]

theorem execute_isolated {o : Opts} {k : Setting P S V I} (ha : o.apply = true) (hlo : o.lockfileOnly = false)
    (e : Iso.Env) (order : Graph Str P S → List Nat)
    (sch : List (REvent S)) (m : Manifest Str) (w : World Nm (Option KDoc) J) {g : Graph Str P S}
    (hr : resolve k sch m o.locked w.lock = some g) :
    (∀ y z l, Iso.install k.pk e g (order g) (disk k.c (loadActual w.metaFile) w.nm) = some y →
      Iso.apply k.pk e g (order g) (disk k.c (loadActual w.metaFile) w.nm) = some z → toLockfile k.v g = some l →
      (Quiet o k ∨ y.rebuild = []) →
      ∃ w', execute o (isolated k e order sch) m w = (w', true) ∧ After k o w w' z.1 l ∧ w'.nm.rebuild = y.rebuild) ∧
    (Quiet o k → (execute o (isolated (J := J) k e order sch) m w).2 = true →
      ∃ y z l, Iso.install k.pk e g (order g) (disk k.c (loadActual w.metaFile) w.nm) = some y ∧
        Iso.apply k.pk e g (order g) (disk k.c (loadActual w.metaFile) w.nm) = some z ∧ toLockfile k.v g = some l) := by
  have hex : execute o (isolated k e order sch) m w =
      andThen (stepInstall o (isolated k e order sch) g (looked w)) (stepLock o (isolated k e order sch) g) := by
    unfold execute
    rw [if_pos ha]
    have : (isolated (J := J) k e order sch).resolve m o.locked w.lock (loadActual w.metaFile) w.nm = some g := hr
    rw [this]
  rw [hex]
  unfold stepInstall
  rw [if_neg (by simp [hlo])]
  simp only [stepPrune]
  rw [andThen_true (a := (_, ((isolated (J := J) k e order sch).prune g (looked w).metaFile (looked w).nm).2)) rfl]
  simp only [stepExtract]
  have hin : Iso.install k.pk e g (order g) (disk k.c (loadActual w.metaFile) w.nm) =
      Iso.extractAll k.pk e g (order g) (Iso.prune e g (disk k.c (loadActual w.metaFile) w.nm)) := rfl
  cases hx : Iso.extractAll k.pk e g (order g) (Iso.prune e g (disk k.c (loadActual w.metaFile) w.nm)) with
  | none =>
    refine ⟨fun y z l h _ _ _ => ?_, fun _ h => ?_⟩
    · rw [hin, hx] at h; cases h
    · exfalso
      simp [isolated, looked, hx, andThen] at h
  | some x =>
    have hap : Iso.apply k.pk e g (order g) (disk k.c (loadActual w.metaFile) w.nm) = Iso.linkBins k.pk e g x.bins (x.tree, x.cache) := by
      simp [Iso.apply, hin, hx]
    cases hl : toLockfile k.v g with
    | none =>
      refine ⟨fun y z l _ _ h _ => (by cases h), fun _ h => ?_⟩
      exfalso
      simp [isolated, looked, hx, document, hl, andThen] at h
    | some l =>
      have he : (isolated (J := J) k e order sch).extract g ((isolated (J := J) k e order sch).prune g (looked w).metaFile (looked w).nm).1.1
          ((isolated (J := J) k e order sch).prune g (looked w).metaFile (looked w).nm).1.2 =
          ((.good, { tree := x.tree, doc := l.toKdl k.c, rebuild := x.rebuild, bins := x.bins, cache := x.cache }), true) := by
        simp [isolated, looked, hx, document, hl]
      simp only [he]
      rw [andThen_true (a := (_, true)) rfl]
      cases hz : Iso.linkBins k.pk e g x.bins (x.tree, x.cache) with
      | none =>
        refine ⟨fun y z l' _ h => (by rw [hap, hz] at h; cases h), fun hq h => ?_⟩
        exfalso
        rw [quiet_rebuild (k := k) _ (fun _ _ _ => rfl) _ _ (.inl hq)] at h
        simp [isolated, hz, andThen] at h
      | some z =>
        refine ⟨fun y z' l' hy h h' hq => ?_, fun _ _ => ⟨x, z, l, by rw [hin, hx], by rw [hap, hz], rfl⟩⟩
        rw [hin, hx] at hy
        rw [hap, hz] at h
        cases hy; cases h; cases h'
        have hlb : (isolated (J := J) k e order sch).linkBins g { tree := x.tree, doc := l.toKdl k.c, rebuild := x.rebuild, bins := x.bins, cache := x.cache } =
            ({ tree := z.1, doc := l.toKdl k.c, rebuild := x.rebuild, bins := x.bins, cache := z.2 }, true) := by
          simp [isolated, hz]
        rw [quiet_rebuild (k := k) _ (fun _ _ _ => rfl) _ _ (hq.imp id fun h => ⟨h, by rw [hlb]; exact h⟩)]
        simp only [hlb]
        rw [if_pos trivial, andThen_true rfl]
        unfold stepLock
        cases hof : o.lockfile with
        | false => exact ⟨_, rfl, ⟨rfl, rfl, rfl, by simp [hof, looked], rfl, rfl⟩, rfl⟩
        | true =>
          refine ⟨_, rfl, ⟨rfl, rfl, rfl, ?_, rfl, rfl⟩, rfl⟩
          simp [isolated, document, hl, hof]

/-- the written document, read back, is a record of the tree -/
theorem recorded_read {c : Codec V I} {v : LockView P S V I} {g : Graph Str P S} {l : Lockfile V I} (hf : FolderTree g) (ho : g.Ord)
    (hn : ∀ (i : Nat) (nd : Node Str P S), i ≠ 0 → g.nodes[i]? = some nd → v.pkgName nd.pkg = nd.name) (hl : toLockfile v g = some l) :
    ∃ l', Lockfile.fromKdl c (l.toKdl c) = .ok l' ∧ Hoisted.Recorded v g (some l'.packages) := by
  have hp := toLockfile_proper hf ho hl
  refine ⟨_, Lockfile.fromKdl_toKdl c l hp, l, _, hl, rfl, ?_, ?_⟩
  · intro p hm
    obtain ⟨q, hq, rfl⟩ := List.mem_map.1 hm
    intro ty
    show IMap.WF ((q.2.norm false).section ty)
    rw [LNode.norm_section]
    exact sortKeys_wf (hp.wf.nodes q ((sortKeys_perm _).mem_iff.1 hq) ty)
  · intro k
    simp only [IMap.get?_map (fun n : LNode V I => n.norm false), get?_sortKeys hp.wf.keys]
    cases hk : l.packages.get? k with
    | none => exact Or.inl ⟨rfl, rfl⟩
    | some n =>
      refine Or.inr ⟨_, n, rfl, rfl, ?_⟩
      obtain ⟨i, h0, hi, hln, _⟩ := toLockfile_entry hl (IMap.mem_of_get? hk)
      have hln : lockNode v g i false = some n := hln
      obtain ⟨h1, h2, h3⟩ := lockNode_path hln
      refine ⟨LNode.norm_entry (hp.wf.nodes _ (IMap.mem_of_get? hk)) h2 (fun h => by rw [h] at h3; cases h3) false, ?_, h2.symm⟩
      obtain ⟨nd, hnd⟩ : ∃ nd, g.nodes[i]? = some nd := ⟨_, List.getElem?_eq_getElem hi⟩
      have hloc := (locatedAt_iff hf ho (i := i) (π := g.nodePath i)).2 ⟨⟨nd, hnd⟩, rfl⟩
      obtain ⟨σ, nd', h4, h5⟩ := Hoisted.located_snoc hloc h0
      rw [hnd] at h4; cases h4
      have hname : n.name = v.pkgName nd.pkg := by
        unfold lockNode at hln
        rw [hnd] at hln
        cases hln
        rfl
      show (if false = true then [] else n.path.getLast?.getD []) = n.name
      rw [hname, hn i nd h0 hnd, h1, h5]
      simp

end Whole
end Oro
