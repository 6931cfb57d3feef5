import Verif.Props.StackCommand
/-
C90, the second time: `oro apply` after `oro apply` (C81), in terms of the registry's documents.
-/

set_option linter.unusedSectionVars false

namespace Oro
namespace Stack
open PSpec Nassun
open Meta (CManifest CDist CVersion CPackument)
open Docs (Bundled Deprecation)
open Hoisted (Tree Pkgs Disk)
open Cli

variable {V R U I : Type} [DecidableEq V] [DecidableEq R] [DecidableEq U] [DecidableEq I] {k : Sys V R U I} {man : Manifest Str}
  {c : Codec V I} {pk : Pkgs (Resolution V R U I)} {script : List Nat → Cli.Event → Tree → Tree × Bool} {e : Iso.Env}
  {order : Graph Str (Resolution V R U I) (PackageSpec V R U) → List Nat} {sch : List (REvent (PackageSpec V R U))} {o : Opts}
  {w w1 : Cli.World Whole.Nm (Option KDoc) Json} {locked : Bool} {toPackage : LNode V I → Option (Option (Resolution V R U I))}

/-- the same, with a registry that answers only what is sought, and another way to read lockfiles -/
noncomputable def Sys.narrow (k : Sys V R U I) (man : Manifest Str) (c : Codec V I) (pk : Pkgs (Resolution V R U I))
    (script : List Nat → Cli.Event → Tree → Tree × Bool) (toPackage : LNode V I → Option (Option (Resolution V R U I))) :
    Whole.Setting (Resolution V R U I) (PackageSpec V R U) V I :=
  { k.setting c pk script with env := k.env.answering (only k man), toPackage := toPackage }

theorem resolve_narrow (hu : Usual k man) (hE : k.base.spec.alphabetic '/' = false) (hle : TotalLe k.base.world.le) :
    Whole.resolve (k.setting c pk script) sch man locked none = Whole.resolve (k.narrow man c pk script toPackage) sch man locked none := by
  unfold Whole.resolve
  have e0 : Node.new (k.narrow man c pk script toPackage).env.parse [] ((k.narrow man c pk script toPackage).rootPkg man) man true =
      Node.new (k.setting c pk script).env.parse [] ((k.setting c pk script).rootPkg man) man true := rfl
  rw [e0]
  cases hr : Node.new (k.setting c pk script).env.parse [] ((k.setting c pk script).rootPkg man) man true with
  | none => rfl
  | some root =>
    have hr : Node.new k.env.parse [] dummy man true = some root := hr
    have h' := rrun_answering (f := only k man) ⟨[], dummy, man, hr⟩ (only_eq hu hE hle hr) sch .init
    simp only [Option.bind_some]
    have e1 : rrun (k.narrow man c pk script toPackage).env ((Whole.lockOf (k.narrow man c pk script toPackage).c none).map
        (·.tree (k.narrow man c pk script toPackage).toPackage)) (rinit root) sch = rrun k.env none (rinit root) sch := h'
    have e2 : rrun (k.setting c pk script).env ((Whole.lockOf (k.setting c pk script).c none).map
        (·.tree (k.setting c pk script).toPackage)) (rinit root) sch = rrun k.env none (rinit root) sch := rfl
    rw [e1, e2]
    rfl

theorem hoisted_narrow (hu : Usual k man) (hE : k.base.spec.alphabetic '/' = false) (hle : TotalLe k.base.world.le)
    (hread : k.readProject w.pkg = some man) (hlock : w.lock = none) :
    applyCmd k.readProject o (Whole.hoisted (k.setting c pk script) sch) w =
      applyCmd k.readProject o (Whole.hoisted (k.narrow man c pk script toPackage) sch) w := by
  rw [Whole.apply_cmd hread, Whole.apply_cmd hread]
  unfold execute
  rw [if_pos rfl, if_pos rfl]
  have e1 : (Whole.hoisted (J := Json) (k.setting c pk script) sch).resolve man o.locked w.lock (loadActual w.metaFile) w.nm =
      (Whole.hoisted (J := Json) (k.narrow man c pk script toPackage) sch).resolve man o.locked w.lock (loadActual w.metaFile) w.nm := by
    rw [hlock]; exact resolve_narrow hu hE hle
  dsimp only
  rw [e1]
  rfl

theorem isolated_narrow (hu : Usual k man) (hE : k.base.spec.alphabetic '/' = false) (hle : TotalLe k.base.world.le)
    (hread : k.readProject w.pkg = some man) (hlock : w.lock = none) :
    applyCmd k.readProject o (Whole.isolated (k.setting c pk script) e order sch) w =
      applyCmd k.readProject o (Whole.isolated (k.narrow man c pk script toPackage) e order sch) w := by
  rw [Whole.apply_cmd hread, Whole.apply_cmd hread]
  unfold execute
  rw [if_pos rfl, if_pos rfl]
  have e1 : (Whole.isolated (J := Json) (k.setting c pk script) e order sch).resolve man o.locked w.lock (loadActual w.metaFile) w.nm =
      (Whole.isolated (J := Json) (k.narrow man c pk script toPackage) e order sch).resolve man o.locked w.lock (loadActual w.metaFile) w.nm := by
    rw [hlock]; exact resolve_narrow hu hE hle
  dsimp only
  rw [e1]
  rfl

/-- what such a registry knows is listed for something that is sought -/
theorem narrow_known (hu : Usual k man) (hle : TotalLe k.base.world.le) {r : Resolution V R U I} {mm : Manifest Str}
    (h : KnownPackage (k.env.answering (only k man)) none r mm) :
    ∃ n sc m q x cv, Sought k man n sc m q ∧ Offers k sc m q x cv ∧ IsListed k n x cv r ∧ mm = sections cv.manifest := by
  rcases h with ⟨spec, hf⟩ | ⟨l, _, _, hl, _⟩
  · obtain ⟨n, sc, m, q, x, cv, h1, _, h3, h4, h5⟩ := hu.fetched_name hle hf
    exact ⟨n, sc, m, q, x, cv, h1, h3, h4, h5⟩
  · cases hl

theorem narrow_plain (hu : Usual k man) (hle : TotalLe k.base.world.le) (hm : man.Proper) (hp : Packed k man pk) :
    Works.Plain (k.env.answering (only k man)) none man pk where
  project := by
    refine ⟨hm, fun n raw ty hq => ?_⟩
    obtain ⟨sc, m, q, ha⟩ := hu.project _ hq.mem_root
    exact hp.names _ _ _ _ (.project hq.mem_root ha)
  packages r mm hk := by
    obtain ⟨n, sc, m, q, x, cv, h1, h2, h3, rfl⟩ := narrow_known hu hle hk
    obtain ⟨p, h4, _, h5⟩ := id h2
    refine ⟨h4.proper h5, fun n' raw ty hq => ?_, hp.folder _ _ _ _ _ _ _ h1 h2 h3⟩
    obtain ⟨sc', m', q', ha⟩ := hu.packages _ _ _ _ _ _ h1 h2 _ hq.mem_other
    exact hp.names _ _ _ _ (.package h1 h2 hq.mem_other ha)

theorem narrow_store (hu : Usual k man) (hle : TotalLe k.base.world.le) {g : Graph Str (Resolution V R U I) (PackageSpec V R U)}
    (hp : PackedStore k man pk e g) : Works.PlainStore (k.env.answering (only k man)) none pk e g where
  noLinks r mm l text hk := by
    obtain ⟨n, sc, m, q, x, cv, h1, h2, h3, rfl⟩ := narrow_known hu hle hk
    exact hp.noLinks _ _ _ _ _ _ _ l text h1 h2 h3
  folders r mm a b hk := by
    obtain ⟨n, sc, m, q, x, cv, h1, h2, h3, rfl⟩ := narrow_known hu hle hk
    exact hp.folders _ _ _ _ _ _ _ a b h1 h2 h3
  absolute := hp.absolute
  digits := hp.digits
  apart := hp.apart

theorem narrow_sound (hu : Usual k man) (hp : Plain k man) (hE : k.base.spec.alphabetic '/' = false) (hle : TotalLe k.base.world.le)
    {g : Graph Str (Resolution V R U I) (PackageSpec V R U)} (hg : Whole.resolve (k.setting c pk script) sch man locked none = some g)
    (hll : LinksLoad g) (hone : Unambiguous k.env g) (answer : Option Str → Str → Option Json) (concurrency : Nat) :
    Whole.Sound (k.narrow man c pk script (k.later answer concurrency).toPackage) g := by
  obtain ⟨root, s, hr, h, hd, rfl, _⟩ := Whole.rrun_done hg
  have hr : Node.new k.env.parse [] dummy man true = some root := hr
  have h : RReach k.env none root s := h
  have hq := (hu.requests hE hle hr h).2
  refine ⟨hll, ?_, hone, ⟨fun i nd h0 hi => valid_names hu hE hle hr h i nd h0 hi, ?_, ?_⟩, ?_⟩
  · intro i n spec ty p m' hdec hf
    obtain ⟨sc, m, q, hs, ha⟩ := hq i n spec ty hdec
    obtain ⟨x, cv, ⟨pp, _, hch, _⟩, ⟨t, j, rfl, _⟩, _⟩ := hu.fetched hle hs ha (only_some hf).2
    show (Resolution.satisfies k.base.world _ spec == some true) = true
    unfold Resolution.satisfies
    rw [(unaliased_det ha.unaliased).symm]
    rcases hp.requests n sc m q hs with ⟨v, rfl, _⟩ | ⟨r, rfl, hstar, _⟩
    · cases hch; simp
    · cases hch with
      | preferred _ _ h => simp [h]
      | highest _ h _ _ => simp [h]
      | star h _ _ _ => rw [hstar] at h; cases h
  · intro i n spec ty _ hdec
    obtain ⟨sc, m, q, hs, ha⟩ := hq i n spec ty hdec
    exact hp.reads hE hs ha
  · intro i nd ln hi0 hi hname hrec
    obtain ⟨sc, m, q, x, cv, hs, ho, ⟨t, j, hpk, ht, _⟩, _⟩ := C88_packages_partial hu hE hle hr h i nd hi hi0
    obtain ⟨⟨sn, hn⟩, _⟩ := hs.names
    obtain ⟨hhttp, u, hu1, hu2⟩ := hp.addresses _ _ _ _ _ _ _ hs ho ht
    obtain ⟨fr, hto⟩ := C60_reads_back_partial k.base.spec hE ln sn (by rw [hname]; exact hn) nd.pkg
      (by rw [hpk]; exact .npm (hp.versions _ _ _ _ _ _ hs ho) hhttp hu1 hu2) (by rw [hpk, hname]; rfl) hrec
    show Sys.toPackage (k.later answer concurrency) ln = _
    unfold Sys.toPackage
    have : ln.toPackage (k.later answer concurrency).base.spec = .package ln.name fr nd.pkg := hto
    rw [this]
  · intro i nd hi0 hi
    obtain ⟨sc, m, q, x, cv, hs, ho, ⟨t, j, hpk, ht, _⟩, _⟩ := C88_packages_partial hu hE hle hr h i nd hi hi0
    show nameOf nd.pkg = nd.name
    rw [hpk]
    rfl

/-- **C90**, the second time, hoisted linker. After an `oro apply` that succeeded in a project without lockfile and node_modules, a second one – whatever
the registry says by then – succeeds, leaves package.json, the lockfile and the meta file as they are, changes nothing in
node_modules, commands apart, and has no scripts to run. -/
theorem C90_again_hoisted_partial (hu : Usual k man) (hpl : Plain k man) (hE : k.base.spec.alphabetic '/' = false) (hle : TotalLe k.base.world.le)
    (hread : k.readProject w.pkg = some man) (hlock : w.lock = none) (hlo : o.lockfileOnly = false) (hlf : o.lockfile = true)
    (hq : Whole.Quiet o (k.setting c pk script)) (hf : Whole.FreshProject w) (hp : Packed k man pk)
    (hl : ∀ g, Whole.resolve (k.setting c pk script) sch man o.locked none = some g → LinksLoad g ∧ Unambiguous k.env g)
    (h1 : applyCmd k.readProject o (Whole.hoisted (k.setting c pk script) sch) w = (w1, true))
    (answer : Option Str → Str → Option Json) (concurrency : Nat) (sch' : List (REvent (PackageSpec V R U))) (o' : Opts)
    (ho1 : o'.lockfileOnly = false) (ho2 : o'.locked = false) (hend : Whole.Ends ((k.later answer concurrency).setting c pk script) sch' man w1.lock) :
    ∃ w2, applyCmd k.readProject o' (Whole.hoisted ((k.later answer concurrency).setting c pk script) sch') w1 = (w2, true) ∧
      w2.pkg = w1.pkg ∧ w2.lock = w1.lock ∧ w2.metaFile = w1.metaFile ∧ w2.nm.doc = w1.nm.doc ∧ w2.nm.rebuild = [] ∧
      ∀ p, ¬ Hoisted.InBin p → w2.nm.tree p = w1.nm.tree p := by
  have hm := readProject_proper hread
  rw [hoisted_narrow (toPackage := (k.later answer concurrency).toPackage) hu hE hle hread hlock] at h1
  have hp' : Works.Plain (k.narrow man c pk script (k.later answer concurrency).toPackage).env
      ((Whole.lockOf (k.narrow man c pk script (k.later answer concurrency).toPackage).c w.lock).map
        (·.tree (k.narrow man c pk script (k.later answer concurrency).toPackage).toPackage)) man
      (k.narrow man c pk script (k.later answer concurrency).toPackage).pk := by
    rw [hlock]; exact narrow_plain hu hle hm hp
  obtain ⟨_, h2⟩ := Whole.C81_command_hoisted_partial (k := k.narrow man c pk script (k.later answer concurrency).toPackage) hread hlo hlf hq hf hp'
    (fun g hg => by
      rw [hlock, ← resolve_narrow hu hE hle] at hg
      exact narrow_sound hu hpl hE hle hg (hl g hg).1 (hl g hg).2 answer concurrency) h1
  exact h2 (k.later answer concurrency).fetch concurrency sch' o' ho1 ho2 hend

/-- **C90**, the second time, isolated linker: as above, and nothing at all changes in node_modules. -/
theorem C90_again_isolated_partial (hu : Usual k man) (hpl : Plain k man) (hE : k.base.spec.alphabetic '/' = false) (hle : TotalLe k.base.world.le)
    (hread : k.readProject w.pkg = some man) (hlock : w.lock = none) (hlo : o.lockfileOnly = false) (hlf : o.lockfile = true)
    (hq : Whole.Quiet o (k.setting c pk script)) (hf : Whole.FreshProject w) (hp : Packed k man pk)
    (hl : ∀ g, Whole.resolve (k.setting c pk script) sch man o.locked none = some g → LinksLoad g ∧ Unambiguous k.env g)
    (hps : ∀ g, Whole.resolve (k.setting c pk script) sch man o.locked none = some g → PackedStore k man pk e g ∧ Iso.PlainCommands pk g)
    (ho : ∀ g, Iso.Order g (order g))
    (h1 : applyCmd k.readProject o (Whole.isolated (k.setting c pk script) e order sch) w = (w1, true))
    (answer : Option Str → Str → Option Json) (concurrency : Nat) (sch' : List (REvent (PackageSpec V R U))) (o' : Opts)
    (ho1 : o'.lockfileOnly = false) (ho2 : o'.locked = false) (hend : Whole.Ends ((k.later answer concurrency).setting c pk script) sch' man w1.lock) :
    ∃ w2, applyCmd k.readProject o' (Whole.isolated ((k.later answer concurrency).setting c pk script) e order sch') w1 = (w2, true) ∧
      w2.pkg = w1.pkg ∧ w2.lock = w1.lock ∧ w2.metaFile = w1.metaFile ∧ w2.nm.doc = w1.nm.doc ∧ w2.nm.rebuild = [] ∧
      w2.nm.tree = w1.nm.tree := by
  have hm := readProject_proper hread
  rw [isolated_narrow (toPackage := (k.later answer concurrency).toPackage) hu hE hle hread hlock] at h1
  have hp' : Works.Plain (k.narrow man c pk script (k.later answer concurrency).toPackage).env
      ((Whole.lockOf (k.narrow man c pk script (k.later answer concurrency).toPackage).c w.lock).map
        (·.tree (k.narrow man c pk script (k.later answer concurrency).toPackage).toPackage)) man
      (k.narrow man c pk script (k.later answer concurrency).toPackage).pk := by
    rw [hlock]; exact narrow_plain hu hle hm hp
  obtain ⟨_, h2⟩ := Whole.C81_command_isolated_partial (k := k.narrow man c pk script (k.later answer concurrency).toPackage) (e := e) hread hlo hlf hq hf hp'
    (fun g hg => by
      rw [hlock, ← resolve_narrow hu hE hle] at hg
      rw [hlock]
      exact ⟨narrow_store hu hle (hps g hg).1, (hps g hg).2⟩)
    (fun g hg => by
      rw [hlock, ← resolve_narrow hu hE hle] at hg
      exact narrow_sound hu hpl hE hle hg (hl g hg).1 (hl g hg).2 answer concurrency) ho h1
  exact h2 (k.later answer concurrency).fetch concurrency sch' o' ho1 ho2 hend

end Stack
end Oro
