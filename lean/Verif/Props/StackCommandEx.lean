import Verif.Props.StackAgain
import Verif.Props.StackWorksEx
/- C90 for commands: `oro apply` with the registry of StackEx.lean. -/

set_option linter.unusedSectionVars false

namespace Oro
namespace Stack
namespace ExK
open PSpec Nassun Fetch Docs
open Meta (CManifest CDist CVersion CPackument)
open Hoisted (Tree Pkgs Disk)
open Cli

/-- package.json -/
def project : Json := .obj [("dependencies".toList, .obj [(['a'], .str ['^', '1']), (['c'], .str "npm:b@^2".toList)])]

theorem project_read : k.readProject project = some man := by decide +kernel

def codec : Codec Nat Str where
  showV n := List.replicate n 'v'
  parseV s := some s.length
  showI := id
  parseI := some
  parse_showV := by simp
  parse_showI := by simp

def script : List Nat → Cli.Event → Tree → Tree × Bool := fun _ _ t => (t, true)

abbrev set : Whole.Setting (Resolution Nat Nat Str Str) (PackageSpec Nat Nat Str) Nat Str := k.setting codec pk script

/-- node_modules is a folder with a file in it, left by something else -/
def wC : Cli.World Whole.Nm (Option KDoc) Json where
  metaFile := .unreadable
  nm := { tree := fun p => if p = [] then some .dir else if p = [['x']] then some (.file [1]) else none, doc := [] }
  lock := none
  pkg := project
  ran := []

def rootC : Node Str (Resolution Nat Nat Str Str) (PackageSpec Nat Nat Str) :=
  { name := [], pkg := dummy, reqs := [(['a'], (sa, .prod)), (['c'], (sc, .prod))] }
theorem rootC_new : Node.new k.env.parse [] dummy man true = some rootC := by decide +kernel
def treeC : St := get (rrun k.env none (rinit rootC) events)
theorem runC_ok : ok (rrun k.env none (rinit rootC) events) = true := by decide +kernel
theorem reachC : RReach k.env none rootC treeC := rrun_reach events .init (get_eq runC_ok)
theorem doneC : treeC.done = true := by decide +kernel

theorem ends : Whole.Ends set events man none := by
  intro root hroot
  have h1 : Node.new k.env.parse [] dummy man true = some root := hroot
  rw [rootC_new] at h1
  cases h1
  exact ⟨_, get_eq runC_ok, fun s h => by cases h; exact doneC⟩

theorem resolvedC (locked : Bool) (g : Graph Str (Resolution Nat Nat Str Str) (PackageSpec Nat Nat Str))
    (h : Whole.resolve set events man locked none = some g) : g = treeC.graph := by
  obtain ⟨root, s, h1, h2⟩ := resolve_ok (c := codec) (pk := pk) (script := script) usual available slash world_total (by decide) ends
  have h' : Whole.resolve set events man locked none = some treeC.graph := by
    unfold Whole.resolve
    have e1 : Node.new set.env.parse [] (set.rootPkg man) man true = some rootC := rootC_new
    have e2 : rrun set.env ((Whole.lockOf set.c none).map (·.tree set.toPackage)) (rinit rootC) events = some (.ok treeC) := get_eq runC_ok
    rw [e1, Option.bind_some, e2]
    simp only [doneC, if_true]
    cases locked <;> rfl
  rw [h'] at h
  exact (Option.some.inj h).symm

theorem flatC : ∀ (i j : Nat) (a b : Node Str (Resolution Nat Nat Str Str) (PackageSpec Nat Nat Str)), i ≠ 0 → j ≠ 0 → treeC.graph.nodes[i]? = some a →
    treeC.graph.nodes[j]? = some b → a.name = b.name → i = j := by
  have hlen : treeC.graph.nodes.length = 4 := by decide +kernel
  have key : ∀ i ∈ List.range 4, ∀ j ∈ List.range 4, i = 0 ∨ j = 0 ∨ i = j ∨ (treeC.graph.nodes[i]?).map (·.name) ≠ (treeC.graph.nodes[j]?).map (·.name) := by decide +kernel
  intro i j a b hi hj ha hb hab
  have h1 := lt_of_get ha
  have h2 := lt_of_get hb
  rw [hlen] at h1 h2
  rcases key i (List.mem_range.2 h1) j (List.mem_range.2 h2) with h | h | h | h
  · exact absurd h hi
  · exact absurd h hj
  · exact h
  · exact absurd (by rw [ha, hb]; simp [hab]) h

theorem soundC : LinksLoad treeC.graph ∧ Unambiguous k.env treeC.graph := reachC.flat (env' := k.env) ⟨_, _, _, rootC_new⟩ flatC

theorem packedStoreC : PackedStore k man pk Works.ExW.v treeC.graph where
  noLinks := packedStore.noLinks
  folders := packedStore.folders
  absolute := rfl
  digits := Works.ExW.plainStore.digits
  apart := by
    have hg := (reachC.sinv ⟨_, _, _, rootC_new⟩).pinv.ginv
    have hlen : treeC.graph.nodes.length = 4 := by decide +kernel
    have hd : ∀ i < 4, ∀ j < 4, Works.ExW.v.hash (joinPath (treeC.graph.nodePath i)) = Works.ExW.v.hash (joinPath (treeC.graph.nodePath j)) → i = j := by
      decide +kernel
    intro i j π ρ _ _ h1 h2 h
    obtain ⟨⟨x, hx⟩, e1⟩ := (locatedAt_iff hg.folderTree hg.ord).1 h1
    obtain ⟨⟨y, hy⟩, e2⟩ := (locatedAt_iff hg.folderTree hg.ord).1 h2
    have l1 := lt_of_get hx
    have l2 := lt_of_get hy
    rw [hlen] at l1 l2
    subst e1 e2
    exact hd i l1 j l2 h

theorem noCommands (g : Graph Str (Resolution Nat Nat Str Str) (PackageSpec Nat Nat Str)) : Iso.PlainCommands pk g :=
  ⟨fun _ _ _ _ _ h => (by cases h), fun _ _ _ _ _ h => (by cases h), fun _ _ _ _ _ _ h => (by cases h)⟩

def orderC (g : Graph Str (Resolution Nat Nat Str Str) (PackageSpec Nat Nat Str)) : List Nat := List.range g.nodes.length

theorem quietC (o : Opts) : Whole.Quiet o set := .inr fun _ _ _ => rfl
theorem freshC : Whole.FreshProject wC := ⟨nofun, .inr rfl⟩

/-- `oro apply` with the hoisted linker: the project works; and a second one, when the registry is gone, changes nothing -/
example : ∃ w1, applyCmd k.readProject {} (Whole.hoisted set events) wC = (w1, true) ∧ DocumentsWork k man pk Works.ExW.v w1.nm.tree ∧
    ∀ sch', Whole.Ends ((k.later (fun _ _ => none) 1).setting codec pk script) sch' man w1.lock →
      ∃ w2, applyCmd k.readProject {} (Whole.hoisted ((k.later (fun _ _ => none) 1).setting codec pk script) sch') w1 = (w2, true) ∧ w2.lock = w1.lock := by
  obtain ⟨w1, h1, h2, _⟩ := C90_apply_hoisted_partial (w := wC) (o := {}) (c := codec) (script := script) Works.ExW.v usual available slash world_total
    one_name (by decide) project_read rfl rfl (quietC _) freshC packed (fun l g hg => by rw [resolvedC l g hg]; exact soundC.1) ends
  refine ⟨w1, h1, h2, fun sch' he => ?_⟩
  obtain ⟨w2, h3, _, h4, _⟩ := C90_again_hoisted_partial (w := wC) (o := {}) usual plain slash world_total project_read rfl rfl rfl (quietC _) freshC packed
    (fun g hg => by rw [resolvedC _ g hg]; exact soundC) h1 (fun _ _ => none) 1 sch' {} rfl rfl he
  exact ⟨w2, h3, h4⟩

/-- with the isolated linker -/
example : ∃ w1, applyCmd k.readProject {} (Whole.isolated set Works.ExW.v orderC events) wC = (w1, true) ∧ DocumentsWork k man pk Works.ExW.v w1.nm.tree := by
  obtain ⟨w1, h1, h2, _⟩ := C90_apply_isolated_partial (w := wC) (o := {}) (c := codec) (script := script) (order := orderC) usual available slash world_total
    one_name (by decide) project_read rfl rfl (quietC _) freshC packed
    (fun l g hg => by rw [resolvedC l g hg]; exact ⟨packedStoreC, noCommands _⟩) (fun g => by unfold Iso.Order orderC; exact List.Perm.refl _) ends
  exact ⟨w1, h1, h2⟩

/-- what the first apply does -/
example : let a := applyCmd k.readProject {} (Whole.hoisted set events) wC
    a.2 = true ∧ a.1.nm.tree [['x']] = none ∧ (a.1.nm.tree [['c'], Works.ExW.pj] = some (.file [2])) ∧ a.1.lock.isSome = true := by decide +kernel

/-- the second run is a whole one, from the lockfile, with no answers needed -/
example : ∃ w1, applyCmd k.readProject {} (Whole.hoisted set events) wC = (w1, true) ∧
    Whole.Ends ((k.later (fun _ _ => none) 1).setting codec pk script) [.pop, .pop, .pop, .pop] man w1.lock := by
  refine ⟨(applyCmd k.readProject {} (Whole.hoisted set events) wC).1, Prod.ext rfl (by decide +kernel), fun root hroot => ?_⟩
  have h1 : Node.new k.env.parse [] dummy man true = some root := hroot
  rw [rootC_new] at h1
  cases h1
  have h : (match rrun (k.later (fun _ _ => none) 1).env ((Whole.lockOf codec (applyCmd k.readProject {} (Whole.hoisted set events) wC).1.lock).map
      (·.tree (k.later (fun _ _ => none) 1).toPackage)) (rinit rootC) [.pop, .pop, .pop, .pop] with
    | some (.ok s) => s.done
    | _ => false) = true := by decide +kernel
  split at h
  · rename_i s hs
    exact ⟨_, hs, fun s' h' => by cases h'; exact h⟩
  · cases h

end ExK
end Stack
end Oro
