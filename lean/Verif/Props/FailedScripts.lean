import Verif.Props.Whole
import Verif.Props.WholeEx
/- C87: lifecycle scripts that fail. -/

set_option linter.unusedSectionVars false

namespace Oro
namespace Whole
open Hoisted (Tree Pkgs Disk)
open Cli

variable {P S V I J : Type} [DecidableEq S] [DecidableEq V] [DecidableEq I]
variable {k : Setting P S V I} {o : Opts} {w w1 : World Nm (Option KDoc) J} {readCorgi : J → Option (Manifest Str)} {m : Manifest Str}
  {sch : List (REvent S)} {e : Iso.Env} {order : Graph Str P S → List Nat}

theorem event_keeps {st : Steps Nm (Option KDoc) J (Manifest Str) (Graph Str P S)} (hs : ∀ g e n, st.script g e n = runScripts k e n)
    (g : Graph Str P S) (ev : Event) (w : World Nm (Option KDoc) J) : (maybeEvent o st g ev w).1.nm.rebuild = w.nm.rebuild := by
  unfold maybeEvent
  split
  · simp only [runEvent, hs, runScripts]
    split <;> rfl
  · rfl

theorem event_fails {st : Steps Nm (Option KDoc) J (Manifest Str) (Graph Str P S)} (hs : ∀ g e n, st.script g e n = runScripts k e n)
    (ho : o.scripts = true) (g : Graph Str P S) (ev : Event) (w : World Nm (Option KDoc) J) (hn : w.nm.rebuild ≠ [])
    (hf : ∀ t, (k.script w.nm.rebuild ev t).2 = false) : (maybeEvent o st g ev w).2 = false := by
  unfold maybeEvent
  rw [if_pos ho]
  simp only [runEvent, hs, runScripts]
  rw [if_neg hn]
  exact hf _

theorem andThen_second_false {N L J : Type} {a : World N L J × Bool} {f : World N L J → World N L J × Bool} (h : (f a.1).2 = false) :
    (andThen a f).2 = false := by
  obtain ⟨a, b⟩ := a
  cases b with
  | false => rfl
  | true => exact h

theorem rebuild_fails {st : Steps Nm (Option KDoc) J (Manifest Str) (Graph Str P S)} (hs : ∀ g e n, st.script g e n = runScripts k e n)
    (hb : ∀ g n, (st.linkBins g n).1.rebuild = n.rebuild) (ho : o.scripts = true) (g : Graph Str P S) (w : World Nm (Option KDoc) J)
    (hn : w.nm.rebuild ≠ []) (ev : Event) (hf : ∀ t, (k.script w.nm.rebuild ev t).2 = false) : (rebuild o st g w).2 = false := by
  unfold rebuild
  have k1 : (maybeEvent o st g .preinstall w).1.nm.rebuild = w.nm.rebuild := event_keeps hs g _ w
  have k2 : (stepLink st g (maybeEvent o st g .preinstall w).1).1.nm.rebuild = w.nm.rebuild := by
    simp only [stepLink]; rw [hb, k1]
  have k3 : (maybeEvent o st g .install (stepLink st g (maybeEvent o st g .preinstall w).1).1).1.nm.rebuild = w.nm.rebuild := by
    rw [event_keeps hs, k2]
  cases ev with
  | preinstall =>
    have := event_fails (o := o) hs ho g .preinstall w hn hf
    unfold andThen
    rw [this]
    exact this
  | install =>
    refine andThen_second_false (andThen_second_false ?_)
    have := event_fails (o := o) hs ho g .install _ (by rw [k2]; exact hn) (by rw [k2]; exact hf)
    unfold andThen
    rw [this]
    exact this
  | postinstall =>
    refine andThen_second_false (andThen_second_false (andThen_second_false ?_))
    exact event_fails (o := o) hs ho g .postinstall _ (by rw [k3]; exact hn) (by rw [k3]; exact hf)

theorem andThen_first {N L J : Type} {a : World N L J × Bool} {f : World N L J → World N L J × Bool} (h : a.2 = false) :
    andThen a f = a := by
  unfold andThen; rw [h]; rfl

/-- C87 (hoisted): an apply during which a script of the packages that are due fails, fails; package.json and the lockfile are left
alone. -/
theorem C87_reported (hread : readCorgi w.pkg = some m) (hlo : o.lockfileOnly = false) (hsc : o.scripts = true) {g : Graph Str P S}
    (hr : resolve k sch m o.locked w.lock = some g) {r : Disk V I × Hoisted.Ext}
    (hin : Hoisted.install k.pk k.v g (disk k.c (loadActual w.metaFile) w.nm) = some r) (hp : r.2.pending ≠ [])
    (ev : Event) (hf : ∀ t, (k.script r.2.pending ev t).2 = false) :
    ∃ w', applyCmd readCorgi o (hoisted k sch) w = (w', false) ∧ w'.lock = w.lock ∧ w'.pkg = w.pkg := by
  have hfalse : (stepInstall { o with apply := true } (hoisted k sch) g (looked w)).2 = false := by
    unfold stepInstall
    rw [if_neg (by simp [hlo])]
    refine andThen_second_false (andThen_second_false ?_)
    have hx : Hoisted.extractAll k.pk g (Hoisted.prune k.v g (disk k.c (loadActual w.metaFile) w.nm)).tree = some r.2 := by
      unfold Hoisted.install at hin
      obtain ⟨x, h1, h2⟩ := Option.bind_eq_some_iff.1 hin
      obtain ⟨l, _, rfl⟩ := Option.map_eq_some_iff.1 h2
      exact h1
    have hl : ∃ l, toLockfile k.v g = some l := by
      unfold Hoisted.install at hin
      obtain ⟨x, h1, h2⟩ := Option.bind_eq_some_iff.1 hin
      obtain ⟨l, h3, rfl⟩ := Option.map_eq_some_iff.1 h2
      exact ⟨l, h3⟩
    obtain ⟨l, hl⟩ := hl
    have hreb : ((stepExtract (hoisted k sch) g (stepPrune (hoisted k sch) g (looked w)).1).1).nm.rebuild = r.2.pending := by
      simp [stepExtract, stepPrune, hoisted, looked, hx, document, hl]
    refine rebuild_fails (k := k) (o := { o with apply := true }) (fun _ _ _ => rfl) (fun _ _ => rfl) hsc g _ ?_ ev ?_
    · rw [hreb]; exact hp
    · rw [hreb]; exact hf
  rw [apply_cmd hread]
  unfold execute
  rw [if_pos rfl]
  have : (hoisted (J := J) k sch).resolve m { o with apply := true }.locked w.lock (loadActual w.metaFile) w.nm = some g := hr
  rw [this]
  dsimp only
  rw [andThen_first hfalse]
  refine ⟨(stepInstall { o with apply := true } (hoisted k sch) g (looked w)).1, ?_,
    (install_lock { o with apply := true } (hoisted k sch) g (looked w)).1, (install_lock { o with apply := true } (hoisted k sch) g (looked w)).2⟩
  rw [← hfalse]

/-- the packages due in a first install -/
theorem fresh_due {g : Graph Str P S} (hg : Hoisted.Installable k.pk g) {d : Disk V I} (hd : Hoisted.Fresh d) :
    ∃ l x, toLockfile k.v g = some l ∧ Hoisted.install k.pk k.v g d = some (⟨x.tree, some l.packages⟩, x) ∧ Hoisted.Installed k.pk g x.tree ∧
      ∀ i, i ∈ x.pending ↔ i ≠ 0 ∧ ∃ nd, g.nodes[i]? = some nd ∧ (k.pk.scripts nd.pkg = true ∨ k.pk.bins nd.pkg ≠ []) := by
  obtain ⟨l, y, h1, h2, h3, h4⟩ := Hoisted.fresh_install (v := k.v) hg hd
  refine ⟨l, y, h1, h2, h4, fun i => ?_⟩
  rw [h3.pending i]
  constructor
  · rintro ⟨a, b, c⟩
    exact ⟨b.1, c⟩
  · rintro ⟨a, nd, b, c⟩
    obtain ⟨n, ρ, h5, h6⟩ := Hoisted.located_cons hg a b
    exact ⟨(List.getElem?_eq_some_iff.1 b).1, ⟨a, n, ρ, h5, h6⟩, nd, b, c⟩

/-- **C87 fails** (hoisted): in a project without node_modules, when the scripts before installing fail, `oro apply` fails; but the same
command, run again, succeeds without running any script, because by then the meta file says that everything is installed. -/
theorem C87_fails (hread : readCorgi w.pkg = some m) (hlo : o.lockfileOnly = false) (hsc : o.scripts = true) (hfr : FreshProject w)
    {g : Graph Str P S} (hr : resolve k sch m o.locked w.lock = some g)
    (hp : Works.Plain k.env ((lockOf k.c w.lock).map (·.tree k.toPackage)) m k.pk)
    (hn : ∀ (i : Nat) (nd : Node Str P S), i ≠ 0 → g.nodes[i]? = some nd → k.v.pkgName nd.pkg = nd.name)
    {i : Nat} {nd : Node Str P S} (hi : i ≠ 0) (hg : g.nodes[i]? = some nd) (hscr : k.pk.scripts nd.pkg = true)
    (hf : ∀ due t, due ≠ [] → k.script due .preinstall t = (t, false)) :
    ∃ w1 w2, applyCmd readCorgi o (hoisted k sch) w = (w1, false) ∧ w1.ran = w.ran ++ [.preinstall] ∧
      applyCmd readCorgi o (hoisted k sch) w1 = (w2, true) ∧ w2.nm.rebuild = [] ∧ w2.metaFile = .good := by
  obtain ⟨root, s0, a1, a2, a3, rfl, _⟩ := rrun_done hr
  have hin := Works.installable a1 a2 hp
  have hg0 := (a2.sinv ⟨[], k.rootPkg m, m, a1⟩).pinv.ginv
  obtain ⟨l, x, x1, x2, x3, x4⟩ := fresh_due (k := k) hin (looked_fresh (k := k) hfr)
  have hne : x.pending ≠ [] := List.ne_nil_of_mem ((x4 i).2 ⟨hi, nd, hg, .inl hscr⟩)
  have hx : Hoisted.extractAll k.pk s0.graph (Hoisted.prune k.v s0.graph (disk k.c (loadActual w.metaFile) w.nm)).tree = some x := by
    unfold Hoisted.install at x2
    obtain ⟨x', h1, h2⟩ := Option.bind_eq_some_iff.1 x2
    obtain ⟨l, _, h3⟩ := Option.map_eq_some_iff.1 h2
    have : x' = x := congrArg Prod.snd h3
    rw [this] at h1
    exact h1
  have hres : (hoisted (J := J) k sch).resolve m { o with apply := true }.locked w.lock (loadActual w.metaFile) w.nm = some s0.graph := hr
  have hfirst : applyCmd readCorgi o (hoisted k sch) w = ({ looked w with
      metaFile := .good, nm := { tree := x.tree, doc := l.toKdl k.c, rebuild := x.pending, bins := x.pending }, ran := w.ran ++ [.preinstall] }, false) := by
    rw [apply_cmd hread]
    unfold execute
    rw [if_pos rfl, hres]
    simp [stepInstall, hlo, stepPrune, stepExtract, hoisted, looked, hx, document, x1, andThen, rebuild, maybeEvent, hsc, runEvent, runScripts, hne, hf _ _ hne]
  obtain ⟨l', b1, b2⟩ := recorded_read (c := k.c) hg0.folderTree hg0.ord hn x1
  obtain ⟨_, r, f1, f2, f3, f4, f5⟩ := Hoisted.C33_again k.pk k.v s0.graph hin ⟨x.tree, some l'.packages⟩ x3 b2
  rw [hfirst]
  generalize hw1 : ({ looked w with
      metaFile := .good, nm := { tree := x.tree, doc := l.toKdl k.c, rebuild := x.pending, bins := x.pending }, ran := w.ran ++ [.preinstall] } :
      World Nm (Option KDoc) J) = w1
  have hdisk : disk k.c (loadActual w1.metaFile) w1.nm = ⟨x.tree, some l'.packages⟩ := by
    subst hw1
    simp [disk, loadActual, b1, Except.toOption]
  have hlk : w1.lock = w.lock := by subst hw1; rfl
  have hpk : w1.pkg = w.pkg := by subst hw1; rfl
  have hran : w1.ran = w.ran ++ [.preinstall] := by subst hw1; rfl
  obtain ⟨g1, _⟩ := execute_hoisted (J := J) (k := k) (o := { o with apply := true }) rfl hlo sch m w1 (g := s0.graph) (by rw [hlk]; exact hr)
  obtain ⟨w2, i1, ⟨i2, _⟩, i8⟩ := g1 r l (by rw [hdisk]; exact f1) x1 (.inr f3)
  exact ⟨w1, w2, rfl, hran, by rw [apply_cmd (m := m) (by rw [hpk]; exact hread)]; exact i1, by rw [i8, f3], i2⟩

/-- C87, partially (hoisted): `oro reapply` runs them all again: it fails as long as one fails, whatever is in node_modules. -/
theorem C87_reapply_partial (hread : readCorgi w.pkg = some m) (hlo : o.lockfileOnly = false) (hsc : o.scripts = true) {g : Graph Str P S}
    (hr : resolve k sch m o.locked w.lock = some g)
    (hp : Works.Plain k.env ((lockOf k.c w.lock).map (·.tree k.toPackage)) m k.pk)
    {i : Nat} {nd : Node Str P S} (hi : i ≠ 0) (hg : g.nodes[i]? = some nd) (hscr : k.pk.scripts nd.pkg = true) (ev : Event)
    (hf : ∀ due t, i ∈ due → (k.script due ev t).2 = false) :
    ∃ w', reapplyCmd clear readCorgi o (hoisted k sch) w = (w', false) ∧ w'.lock = w.lock ∧ w'.pkg = w.pkg := by
  obtain ⟨root, s0, a1, a2, a3, rfl, _⟩ := rrun_done hr
  have hin := Works.installable a1 a2 hp
  have hfr : FreshProject (cleared w) := ⟨nofun, .inl fun _ => rfl⟩
  obtain ⟨l, x, x1, x2, x3, x4⟩ := fresh_due (k := k) hin (looked_fresh (k := k) hfr)
  have hmem := (x4 i).2 ⟨hi, nd, hg, .inl hscr⟩
  rw [reapply_eq]
  exact C87_reported (w := cleared w) hread hlo hsc hr x2 (List.ne_nil_of_mem hmem) ev fun t => hf _ t hmem

end Whole

namespace Whole.ExC
open ExL (treeC)
open Cli

/-- the project of C81's example, with a machine on which scripts fail -/
def kF : Setting ExL.Pk ExL.Sp Nat Nat := { k with script := fun _ e t => (t, e != .preinstall) }

/-- the hypotheses of `C87_fails` are met -/
example : ∃ w1 w2, applyCmd read {} (hoisted kF schC) w = (w1, false) ∧ applyCmd read {} (hoisted kF schC) w1 = (w2, true) := by
  obtain ⟨nd, h1, h2⟩ : ∃ nd, treeC.graph.nodes[1]? = some nd ∧ kF.pk.scripts nd.pkg = true := by
    have : (treeC.graph.nodes[1]?).any (fun nd => kF.pk.scripts nd.pkg) = true := by decide +kernel
    obtain ⟨nd, h1, h2⟩ := (Option.any_eq_true _ _).1 this
    exact ⟨nd, h1, h2⟩
  obtain ⟨w1, w2, a, _, b, _⟩ := C87_fails (k := kF) (o := {}) (readCorgi := read) (m := Again.ExG.manC) (sch := schC) rfl rfl rfl fresh resolves Again.ExG.plain names
    (i := 1) nofun h1 h2 fun _ _ _ => rfl
  exact ⟨w1, w2, a, b⟩

/-- and those of `C87_reapply_partial`, with a node_modules that says it is up to date -/
example : ∃ w', reapplyCmd clear read {} (hoisted kF schC) { w with metaFile := .good } = (w', false) := by
  obtain ⟨nd, h1, h2⟩ : ∃ nd, treeC.graph.nodes[1]? = some nd ∧ kF.pk.scripts nd.pkg = true := by
    have : (treeC.graph.nodes[1]?).any (fun nd => kF.pk.scripts nd.pkg) = true := by decide +kernel
    obtain ⟨nd, h1, h2⟩ := (Option.any_eq_true _ _).1 this
    exact ⟨nd, h1, h2⟩
  obtain ⟨w', a, _⟩ := C87_reapply_partial (k := kF) (o := {}) (w := { w with metaFile := .good }) (readCorgi := read) (m := Again.ExG.manC) (sch := schC) rfl rfl rfl
    resolves Again.ExG.plain (i := 1) nofun h1 h2 .preinstall fun _ _ _ => rfl
  exact ⟨w', a⟩

end Whole.ExC
end Oro
