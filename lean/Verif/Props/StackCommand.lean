import Verif.Model.Command
import Verif.Props.StackEnds
import Verif.Props.StackWorks
import Verif.Props.Whole
/-
C90, for the commands: `oro apply` and `oro reapply`, from package.json and the registry's documents to node_modules.
-/

set_option linter.unusedSectionVars false

namespace Oro
namespace Stack
open PSpec Nassun
open Meta (CManifest CDist CVersion CPackument)
open Docs (Bundled Deprecation)
open Hoisted (Tree Pkgs Disk)
open Cli

variable {V R U I : Type} [DecidableEq V] [DecidableEq R] [DecidableEq U] [DecidableEq I] {k : Sys V R U I} {man : Manifest Str}
  {c : Codec V I} {pk : Pkgs (Resolution V R U I)} {script : List Nat → Cli.Event → Tree → Tree × Bool} {e : Iso.Env}
  {order : Graph Str (Resolution V R U I) (PackageSpec V R U) → List Nat} {sch : List (REvent (PackageSpec V R U))} {o : Opts}
  {w : Cli.World Whole.Nm (Option KDoc) Json} {locked : Bool}

/-- package.json mentions a name once in each of its tables -/
theorem readProject_proper {j : Json} (h : k.readProject j = some man) : man.Proper := by
  unfold Sys.readProject at h
  obtain ⟨r, h1, rfl⟩ := Option.map_eq_some_iff.1 h
  cases j with
  | obj m =>
    have hd := (Docs.C79_manifest _ m r).1 h1
    exact ⟨texts_wf hd.dependencies, texts_wf hd.optionalDependencies, texts_wf hd.devDependencies⟩
  | _ => cases h1

/-- a resolve without a lockfile that ended, when all that is sought can be had -/
theorem resolve_ok (hu : Usual k man) (hav : Available k man) (hE : k.base.spec.alphabetic '/' = false) (hle : TotalLe k.base.world.le)
    (hc : 0 < k.concurrency) (hend : Whole.Ends (k.setting c pk script) sch man none) :
    ∃ root s, Node.new k.env.parse [] dummy man true = some root ∧ RReach k.env none root s ∧ s.done = true ∧
      ∀ locked, Whole.resolve (k.setting c pk script) sch man locked none = some s.graph := by
  obtain ⟨root, hr, hs⟩ := C88_succeeds_partial hu hav hE hle hc [] dummy
  obtain ⟨r, h1, h2⟩ := hend root hr
  obtain ⟨s, rfl, hrs⟩ := Whole.rrun_total (fun s ev r hr he => (hs s hr).1 ev r he) sch _ _ .init h1
  refine ⟨root, s, hr, hrs, h2 s rfl, fun locked => ?_⟩
  unfold Whole.resolve
  have e1 : Node.new (k.setting c pk script).env.parse [] ((k.setting c pk script).rootPkg man) man true = some root := hr
  rw [e1, Option.bind_some, h1]
  simp only [h2 s rfl, if_true]
  have : Whole.lockOf (k.setting c pk script).c none = none := rfl
  rw [this]
  unfold finish
  split <;> rfl

/-- **C90**, for commands, isolated linker: when all that is sought can be had, then in a project without a lockfile and without node_modules (or with
one without a readable meta file), `oro apply` succeeds, in whatever order the answers come and packages are done; the project works by
the documents; package.json is as it was. -/
theorem C90_apply_isolated_partial (hu : Usual k man) (hav : Available k man) (hE : k.base.spec.alphabetic '/' = false)
    (hle : TotalLe k.base.world.le) (hone : OneName k man) (hc : 0 < k.concurrency) (hread : k.readProject w.pkg = some man) (hlock : w.lock = none)
    (hlo : o.lockfileOnly = false) (hq : Whole.Quiet o (k.setting c pk script)) (hf : Whole.FreshProject w) (hp : Packed k man pk)
    (hps : ∀ locked g, Whole.resolve (k.setting c pk script) sch man locked none = some g → PackedStore k man pk e g ∧ Iso.PlainCommands pk g)
    (ho : ∀ g, Iso.Order g (order g)) (hend : Whole.Ends (k.setting c pk script) sch man none) :
    ∃ w', applyCmd k.readProject o (Whole.isolated (k.setting c pk script) e order sch) w = (w', true) ∧
      DocumentsWork k man pk e w'.nm.tree ∧ w'.pkg = w.pkg ∧ (o.lockfile = true → w'.lock = some w'.nm.doc) := by
  obtain ⟨root, s, hr, h, hd, hres⟩ := resolve_ok (c := c) (pk := pk) (script := script) hu hav hE hle hc hend
  obtain ⟨hps1, hps2⟩ := hps _ _ (hres false)
  have hm := readProject_proper hread
  have hi := installable_store hu hE hle hr h hp hps1
  have hf' := Whole.looked_fresh (k := k.setting c pk script) hf
  obtain ⟨z, c1, c2, _⟩ := Iso.C35_isolated_partial pk e s.graph hi hps2 _ hf' _ (ho s.graph)
  obtain ⟨y, y1, _⟩ := Iso.C46_fresh pk e s.graph hi _ hf' _ (ho s.graph)
  obtain ⟨l, hl⟩ := toLockfile_isSome (h.sinv ⟨[], dummy, man, hr⟩).pinv.ginv.folderTree k.view
  obtain ⟨x1, _⟩ := Whole.execute_isolated (J := Json) (k := k.setting c pk script) (o := { o with apply := true }) rfl hlo e order sch man w
    (g := s.graph) (by rw [hlock]; exact hres _)
  obtain ⟨w', z1, ⟨z2, z3, z4, z5, z6, _⟩, _⟩ := x1 y z l y1 c1 hl (.inl hq)
  refine ⟨w', ?_, ?_, z6, fun hlf => ?_⟩
  · rw [Whole.apply_cmd hread]; exact z1
  · rw [z3]
    exact C90_store_partial hu hE hle hone hm hr h hd hp hps1 c2
  · rw [z5, z4, if_pos hlf]

/-- **C90**, for commands, hoisted linker: as above, for orders of answers that lead to a tree in which links lead to what is loaded (C01), as
they do in every tree without a name twice. -/
theorem C90_apply_hoisted_partial (v : Iso.Env) (hu : Usual k man) (hav : Available k man) (hE : k.base.spec.alphabetic '/' = false)
    (hle : TotalLe k.base.world.le) (hone : OneName k man) (hc : 0 < k.concurrency) (hread : k.readProject w.pkg = some man) (hlock : w.lock = none)
    (hlo : o.lockfileOnly = false) (hq : Whole.Quiet o (k.setting c pk script)) (hf : Whole.FreshProject w) (hp : Packed k man pk)
    (hl : ∀ locked g, Whole.resolve (k.setting c pk script) sch man locked none = some g → LinksLoad g)
    (hend : Whole.Ends (k.setting c pk script) sch man none) :
    ∃ w', applyCmd k.readProject o (Whole.hoisted (k.setting c pk script) sch) w = (w', true) ∧
      DocumentsWork k man pk v w'.nm.tree ∧ w'.pkg = w.pkg ∧ (o.lockfile = true → w'.lock = some w'.nm.doc) := by
  obtain ⟨root, s, hr, h, hd, hres⟩ := resolve_ok (c := c) (pk := pk) (script := script) hu hav hE hle hc hend
  have hm := readProject_proper hread
  have hi := installable hu hE hle hr h hp
  have hf' := Whole.looked_fresh (k := k.setting c pk script) hf
  obtain ⟨r, c1, c2, c3⟩ := Hoisted.C33_fresh pk k.view s.graph hi _ hf'
  obtain ⟨l, _, hlk, _⟩ := id c3
  obtain ⟨x1, _⟩ := Whole.execute_hoisted (J := Json) (k := k.setting c pk script) (o := { o with apply := true }) rfl hlo sch man w
    (g := s.graph) (by rw [hlock]; exact hres _)
  obtain ⟨w', z1, ⟨z2, z3, z4, z5, z6, _⟩, _⟩ := x1 r l c1 hlk (.inl hq)
  refine ⟨w', ?_, ?_, z6, fun hlf => ?_⟩
  · rw [Whole.apply_cmd hread]; exact z1
  · rw [z3]
    exact C90_installed_partial hu hE hle hone hm hr h hd (hl _ _ (hres false)) hp c2
  · rw [z5, z4, if_pos hlf]

theorem cleared_fresh : Whole.FreshProject (Whole.cleared w) := ⟨nofun, .inl fun _ => rfl⟩

/-- **C90**, `oro reapply`, isolated linker: the same, whatever is in node_modules. -/
theorem C90_reapply_isolated_partial (hu : Usual k man) (hav : Available k man) (hE : k.base.spec.alphabetic '/' = false)
    (hle : TotalLe k.base.world.le) (hone : OneName k man) (hc : 0 < k.concurrency) (hread : k.readProject w.pkg = some man) (hlock : w.lock = none)
    (hlo : o.lockfileOnly = false) (hq : Whole.Quiet o (k.setting c pk script)) (hp : Packed k man pk)
    (hps : ∀ locked g, Whole.resolve (k.setting c pk script) sch man locked none = some g → PackedStore k man pk e g ∧ Iso.PlainCommands pk g)
    (ho : ∀ g, Iso.Order g (order g)) (hend : Whole.Ends (k.setting c pk script) sch man none) :
    ∃ w', reapplyCmd Whole.clear k.readProject o (Whole.isolated (k.setting c pk script) e order sch) w = (w', true) ∧
      DocumentsWork k man pk e w'.nm.tree ∧ w'.pkg = w.pkg ∧ (o.lockfile = true → w'.lock = some w'.nm.doc) := by
  rw [Whole.reapply_eq]
  exact C90_apply_isolated_partial (w := Whole.cleared w) hu hav hE hle hone hc hread hlock hlo hq cleared_fresh hp hps ho hend

/-- **C90**, `oro reapply`, hoisted linker. -/
theorem C90_reapply_hoisted_partial (v : Iso.Env) (hu : Usual k man) (hav : Available k man) (hE : k.base.spec.alphabetic '/' = false)
    (hle : TotalLe k.base.world.le) (hone : OneName k man) (hc : 0 < k.concurrency) (hread : k.readProject w.pkg = some man) (hlock : w.lock = none)
    (hlo : o.lockfileOnly = false) (hq : Whole.Quiet o (k.setting c pk script)) (hp : Packed k man pk)
    (hl : ∀ locked g, Whole.resolve (k.setting c pk script) sch man locked none = some g → LinksLoad g)
    (hend : Whole.Ends (k.setting c pk script) sch man none) :
    ∃ w', reapplyCmd Whole.clear k.readProject o (Whole.hoisted (k.setting c pk script) sch) w = (w', true) ∧
      DocumentsWork k man pk v w'.nm.tree ∧ w'.pkg = w.pkg ∧ (o.lockfile = true → w'.lock = some w'.nm.doc) := by
  rw [Whole.reapply_eq]
  exact C90_apply_hoisted_partial (w := Whole.cleared w) v hu hav hE hle hone hc hread hlock hlo hq cleared_fresh hp hl hend

/-- There is such an order of answers, if the documents are without cycles; and no run is longer than a bound. -/
theorem C90_runs (hu : Usual k man) (hav : Available k man) (hE : k.base.spec.alphabetic '/' = false) (hle : TotalLe k.base.world.le)
    (hcon : 0 < k.concurrency) {rank : Str → V → Nat} {depth width : Nat} (hc : NoCycles k man rank depth width) :
    (∃ sch, Whole.Ends (k.setting c pk script) sch man none) ∧
    ∀ sch, Whole.Ends (k.setting c pk script) sch man none → sch.length ≤ eventBound man depth width := by
  obtain ⟨root, hr, h1, evs, s, h2, h3⟩ := C88_total_partial hu hav hE hle hcon hc [] dummy
  refine ⟨⟨evs, fun root' hr' => ?_⟩, fun sch hend => ?_⟩
  · have hr' : Node.new k.env.parse [] dummy man true = some root' := hr'
    rw [hr] at hr'
    cases hr'
    exact ⟨_, h2, fun s' e => by cases e; exact h3⟩
  · obtain ⟨r, h4, _⟩ := hend root hr
    obtain ⟨_, _, h5, _⟩ := h1 sch r h4
    exact h5

end Stack
end Oro
