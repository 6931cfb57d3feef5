import Verif.Props.Whole
import Verif.Props.AgainEx
/- C81 and C82 for commands: concrete cases. -/

set_option linter.unusedSectionVars false

namespace Oro
namespace Whole
namespace ExC
open Hoisted (Tree Pkgs Disk)
open ExL (Pk Sp St E Nd envC treeC runC_ok view codec toPackage final ok)
open Again.ExG (manC pk)
open Cli

/-- the project of C81's example; scripts run, and change nothing in node_modules -/
def k : Setting Pk Sp Nat Nat where
  env := envC
  v := view
  c := codec
  toPackage := toPackage
  pk := pk
  rootPkg _ := (['p'], 0)
  script _ _ t := (t, true)

def schC : List (REvent Sp) := [.pop, .pull, .pull, .complete (['e'], ['^']), .complete (['n'], ['1']), .deliver, .pop, .pop, .pull,
  .complete (['n'], ['2']), .deliver, .pop]

def read (j : Bool) : Option (Manifest Str) := if j then some manC else none

/-- node_modules is a folder with a file in it, left by something else -/
def w : World Nm (Option KDoc) Bool where
  metaFile := .unreadable
  nm := { tree := fun p => if p = [] then some .dir else if p = [['x']] then some (.file [1]) else none, doc := [] }
  lock := none
  pkg := true
  ran := []

theorem resolves : resolve k schC manC false w.lock = some treeC.graph := by
  unfold resolve
  have h1 : Node.new k.env.parse [] (k.rootPkg manC) manC true = some ExL.root := rfl
  have h2 : rrun k.env ((lockOf k.c w.lock).map (·.tree k.toPackage)) (rinit ExL.root) schC = some (.ok treeC) := ExL.get_eq runC_ok
  rw [h1, Option.bind_some, h2]
  simp only [Again.ExG.finished, if_true, finish]
  rfl

theorem quiet (o : Opts) : Quiet o k := .inr fun _ _ _ => rfl
theorem fresh : FreshProject w := ⟨nofun, .inr rfl⟩

theorem names (i : Nat) (nd : Nd) (h0 : i ≠ 0) (hi : treeC.graph.nodes[i]? = some nd) : view.pkgName nd.pkg = nd.name := by
  have hall : ∀ nd ∈ treeC.graph.nodes.drop 1, nd.name = nd.pkg.1 := by decide +kernel
  exact (hall _ (Again.ExG.nodes_tail i nd hi h0)).symm

theorem sound (g : Graph Str Pk Sp) (h : resolve k schC manC ({} : Opts).locked w.lock = some g) : Sound k g := by
  have h' := resolves
  rw [show ({} : Opts).locked = false from rfl, h'] at h
  cases h
  exact ⟨Again.ExG.sound, fun _ _ _ _ _ _ _ => Again.ExG.answers _ _ _, Again.ExG.unambiguous, Again.ExG.readsBack, names⟩

/-- the first apply succeeds -/
theorem first : ∃ w1, applyCmd read {} (hoisted k schC) w = (w1, true) := by
  obtain ⟨x1, _⟩ := execute_hoisted (J := Bool) (k := k) (o := ({} : Opts)) rfl rfl schC manC w resolves
  obtain ⟨r, c1, _, c3⟩ := Hoisted.C33_fresh k.pk k.v treeC.graph (Works.installable Again.ExG.made Again.ExG.reach Again.ExG.plain) _
    (looked_fresh (k := k) fresh)
  obtain ⟨l, _, hl, _⟩ := c3
  obtain ⟨w', h, _⟩ := x1 r l c1 hl (.inl (quiet _))
  exact ⟨w', h⟩

/-- the schedule of four steps is a whole run from the lockfile -/
theorem ends_again {l : Lockfile Nat Nat} (hl : toLockfile view treeC.graph = some l) :
    Ends (k.later (fun _ => none) 1) [.pop, .pop, .pop, .pop] manC (some (l.toKdl codec)) := by
  intro root hroot
  have h1 : Node.new envC.parse [] (['p'], 0) manC true = some root := hroot
  rw [Again.ExG.made] at h1
  cases h1
  have h : (toLockfile view treeC.graph).any (fun l => match rrun { envC with fetch := fun _ => none, concurrency := 1 }
      ((lockOf codec (some (l.toKdl codec))).map (·.tree toPackage)) (rinit ExL.root) [.pop, .pop, .pop, .pop] with
        | some (.ok s) => s.done
        | _ => false) = true := by decide +kernel
  obtain ⟨l0, h1, h2⟩ := (Option.any_eq_true _ _).1 h
  rw [hl] at h1
  cases h1
  split at h2
  · rename_i s hs
    refine ⟨_, hs, fun s' h => ?_⟩
    cases h
    exact h2
  · cases h2

/-- the hypotheses of `C81_command_hoisted_partial` are met -/
example : ∃ w1 w2, applyCmd read {} (hoisted k schC) w = (w1, true) ∧
    applyCmd read {} (hoisted (k.later (fun _ => none) 1) [.pop, .pop, .pop, .pop]) w1 = (w2, true) ∧ w2.lock = w1.lock ∧
    ∀ p, ¬ Hoisted.InBin p → w2.nm.tree p = w1.nm.tree p := by
  obtain ⟨w1, h1⟩ := first
  obtain ⟨⟨g, hg, hin⟩, h2⟩ := C81_command_hoisted_partial (k := k) (m := manC) (sch := schC) rfl rfl rfl (quiet _) fresh Again.ExG.plain sound h1
  have hgg : g = treeC.graph := by
    have h' := resolves
    rw [show ({} : Opts).locked = false from rfl, h'] at hg
    exact (Option.some.inj hg).symm
  subst hgg
  obtain ⟨l, hl, hlk⟩ : ∃ l, toLockfile view treeC.graph = some l ∧ w1.lock = some (l.toKdl codec) := by
    obtain ⟨x1, x2⟩ := execute_hoisted (J := Bool) (k := k) (o := ({} : Opts)) rfl rfl schC manC w resolves
    obtain ⟨r, l, y1, y2⟩ := x2 (by
      have h1' : execute {} (hoisted k schC) manC w = (w1, true) := h1
      rw [h1'])
    obtain ⟨w', z1, ⟨_, _, _, z5, _⟩, _⟩ := x1 r l y1 y2 (.inl (quiet _))
    have h1' : execute {} (hoisted k schC) manC w = (w1, true) := h1
    rw [h1'] at z1
    cases z1
    exact ⟨l, y2, z5⟩
  obtain ⟨w2, h3, _, h4, _, _, _, h5⟩ := h2 (fun _ => none) 1 [.pop, .pop, .pop, .pop] {} rfl rfl (by rw [hlk]; exact ends_again hl)
  exact ⟨w1, w2, h1, h3, h4, h5⟩

/-- what the first apply does: the old file goes, e and its n@2 come, the script is due, and the command is there -/
example : let a := applyCmd read {} (hoisted k schC) w
    a.2 = true ∧ a.1.nm.tree [['x']] = none ∧ (a.1.nm.tree [['e'], nmWord, ['n'], Works.ExW.pj]).isSome = true ∧ a.1.nm.rebuild ≠ [] ∧
      a.1.nm.tree [Hoisted.binName, Again.ExG.run] ≠ none := by decide +kernel

/-- the hypotheses of `C81_command_isolated_partial` are met -/
example : ∃ w1, applyCmd read {} (isolated k Works.ExW.v (fun g => List.range g.nodes.length) schC) w = (w1, true) ∧
    w1.nm.tree [Hoisted.binName, Again.ExG.run] ≠ none ∧ FreshProject w ∧
    (∀ g, resolve k schC manC ({} : Opts).locked w.lock = some g →
      Works.PlainStore k.env ((lockOf k.c w.lock).map (·.tree k.toPackage)) k.pk Works.ExW.v g ∧ Iso.PlainCommands k.pk g ∧ Sound k g) ∧
    ∃ l, toLockfile view treeC.graph = some l ∧ w1.lock = some (l.toKdl codec) ∧
      Ends (k.later (fun _ => none) 1) [.pop, .pop, .pop, .pop] manC w1.lock := by
  have hok : (applyCmd read {} (isolated k Works.ExW.v (fun g => List.range g.nodes.length) schC) w).2 = true := by decide +kernel
  have hb : (applyCmd read {} (isolated k Works.ExW.v (fun g => List.range g.nodes.length) schC) w).1.nm.tree [Hoisted.binName, Again.ExG.run] ≠ none := by
    decide +kernel
  obtain ⟨x1, x2⟩ := execute_isolated (J := Bool) (k := k) (o := ({} : Opts)) rfl rfl Works.ExW.v (fun g => List.range g.nodes.length) schC manC w resolves
  obtain ⟨y, z, l, y0, y1, y2⟩ := x2 (quiet _) hok
  obtain ⟨w1, z1, ⟨_, _, _, z5, _⟩, _⟩ := x1 y z l y0 y1 y2 (.inl (quiet _))
  have z1' : applyCmd read {} (isolated k Works.ExW.v (fun g => List.range g.nodes.length) schC) w = (w1, true) := z1
  rw [z1'] at hb
  refine ⟨w1, z1', hb, fresh, fun g h => ?_, l, y2, z5, by rw [z5]; exact ends_again y2⟩
  have hs := sound g h
  have h' := resolves
  rw [show ({} : Opts).locked = false from rfl, h'] at h
  cases h
  exact ⟨Again.ExG.plainStore, Again.ExG.plainCommands, hs⟩

/-- the hypotheses of `C82_hoisted` are met, with a node_modules that says it is up to date and is not -/
example : ∃ w', reapplyCmd clear read {} (hoisted k schC) { w with metaFile := .good } = (w', true) ∧ Hoisted.Installed pk treeC.graph w'.nm.tree := by
  obtain ⟨w', _, h1, h2, _⟩ := C82_hoisted (k := k) (w := { w with metaFile := .good }) (m := manC) (sch := schC) (o := {}) (readCorgi := read) rfl rfl (quiet _)
    Again.ExG.plain resolves
  exact ⟨w', h1, h2⟩

/-- and those of `C82_isolated` -/
example : ∃ w', reapplyCmd clear read {} (isolated k Works.ExW.v (fun g => List.range g.nodes.length) schC) { w with metaFile := .good } = (w', true) ∧
    Iso.Installed pk Works.ExW.v treeC.graph w'.nm.tree := by
  obtain ⟨w', _, h1, h2, _⟩ := C82_isolated (k := k) (w := { w with metaFile := .good }) (m := manC) (sch := schC) (o := {}) (readCorgi := read) rfl rfl (quiet _)
    Again.ExG.plain (e := Works.ExW.v) (order := fun g => List.range g.nodes.length) Again.ExG.plainStore Again.ExG.plainCommands (List.Perm.refl _) resolves
  exact ⟨w', h1, h2⟩

/-- `C82_fails`, with a package.json that cannot be read: node_modules is lost -/
example : ∃ w', reapplyCmd clear read {} (hoisted k schC) { w with pkg := false } = (w', false) ∧ Gone w' := by
  obtain ⟨⟨w', h1, h2, _⟩, _⟩ := C82_fails (readCorgi := read) {} (hoisted k schC) { w with pkg := false } (.inl rfl)
  exact ⟨w', h1, h2⟩

/-- the hypotheses of `C34_wiped` and `C34_wiped_isolated` are met, with a meta file whose contents cannot be read -/
example : FreshProject (stepPrune (hoisted k schC) treeC.graph { w with metaFile := .good }).1 ∧
    FreshProject (stepPrune (isolated k Works.ExW.v (fun g => List.range g.nodes.length) schC) treeC.graph { w with metaFile := .good }).1 :=
  ⟨(C34_wiped (k := k) _ _ (fun h => by cases h) (.inl (by decide +kernel))).2, (C34_wiped_isolated (k := k) _ _ (fun h => by cases h) (.inl (by decide +kernel))).2⟩

end ExC
end Whole
end Oro
