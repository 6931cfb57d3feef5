import Verif.Props.Again
import Verif.Props.WorksEx
/- C81: concrete cases. -/

set_option linter.unusedSectionVars false

namespace Oro
namespace Again
namespace ExG
open Hoisted (Entry Tree Pkgs Disk)
open ExL (Pk Sp St E Nd mkEnv mkRoot ok final final_reach requires_deps envC treeC runC_ok root_okC view codec toPackage)
open Works

/-! the project wants e and n@1, and e wants n@2, which is installed inside e; e has a command, and an install script -/

def manC : Manifest Str := { deps := [(['e'], ['^']), (['n'], ['1'])] }
/-- the command has the name of the package: others are not linked by the isolated linker (isolated.rs:596) -/
def run : Str := ['e']
def pk : Pkgs Pk where
  content x p := if p = [] then some .dir else if p = [ExW.pj] then some (.file [UInt8.ofNat x.2]) else none
  scripts x := x.1 == ['e']
  bins x := if x.1 = ['e'] then [(run, [ExW.pj])] else []

theorem made : Node.new envC.parse [] (['p'], 0) manC true = some ExL.root := rfl
theorem reach : RReach envC none ExL.root treeC := final_reach runC_ok
theorem finished : treeC.done = true := by decide +kernel
theorem ord : treeC.graph.Ord := (reach.sinv root_okC).pinv.ginv.ord
theorem sound : LinksLoad treeC.graph := linksOk_loads ord (by decide +kernel)
theorem unambiguous : Unambiguous envC treeC.graph := othersOk_one ord (by decide +kernel)

theorem answers (spec : Sp) (p : Pk) (m' : Manifest Str) (hf : envC.fetch spec = some (p, m')) : envC.sat p spec = true := by
  obtain ⟨n, t⟩ := spec
  simp only [envC, mkEnv, List.lookup] at hf
  split at hf
  · rename_i h; have h := eq_of_beq h; cases h; cases hf; rfl
  · split at hf
    · rename_i h; have h := eq_of_beq h; cases h; cases hf; rfl
    · split at hf
      · rename_i h; have h := eq_of_beq h; cases h; cases hf; rfl
      · cases hf

theorem nodes_tail (i : Nat) (nd : Nd) (hi : treeC.graph.nodes[i]? = some nd) (h0 : i ≠ 0) : nd ∈ treeC.graph.nodes.drop 1 := by
  obtain ⟨j, rfl⟩ : ∃ j, i = j + 1 := ⟨i - 1, by omega⟩
  rw [show j + 1 = 1 + j from Nat.add_comm _ _, ← List.getElem?_drop] at hi
  exact List.mem_of_getElem? hi

theorem readsBack : ReadsBack envC view toPackage treeC.graph where
  names := by
    intro i nd h0 hi
    have hall : ∀ nd ∈ treeC.graph.nodes.drop 1, (∀ c ∈ nd.name, c ≠ '/') ∧ nd.name.head? ≠ some '@' := by decide +kernel
    obtain ⟨h1, h2⟩ := hall nd (nodes_tail i nd hi h0)
    exact .inl ⟨fun hc => h1 _ hc rfl, h2⟩
  specs := by
    rintro i n ⟨n', t⟩ ty h0 ⟨nd, hi, hr⟩
    have hreq : ∀ nd ∈ treeC.graph.nodes.drop 1, ∀ r ∈ nd.reqs, r.1 = r.2.1.1 := by decide +kernel
    have : n = n' := hreq nd (nodes_tail i nd hi h0) _ (IMap.mem_of_get? hr)
    subst this
    rfl
  packages := by
    rintro i ⟨nm, ⟨pn, pv⟩, rq, pa, ch, de⟩ n h0 hi hname ⟨h1, h2, h3⟩
    have hall : ∀ nd ∈ treeC.graph.nodes.drop 1, nd.name = nd.pkg.1 := by decide +kernel
    have h4 : nm = pn := hall _ (nodes_tail i _ hi h0)
    have hname : n.name = nm := hname
    unfold toPackage
    rw [h2, hname, h4]
    rfl

theorem known {x : Pk} {mx : Manifest Str} (h : KnownPackage envC none x mx) :
    (x = (['e'], 1) ∧ mx = { deps := [(['n'], ['2'])] }) ∨ (x = (['n'], 1) ∧ mx = {}) ∨ (x = (['n'], 2) ∧ mx = {}) := by
  rcases h with ⟨spec, h⟩ | ⟨l, π, ent, h, _⟩
  · simp only [envC, mkEnv] at h
    obtain ⟨r, h1, h2⟩ := Option.map_eq_some_iff.1 h
    have := ExW.lookup_mem h1
    simp only [Prod.mk.injEq] at h2
    obtain ⟨rfl, rfl⟩ := h2
    simp only [List.mem_cons, Prod.mk.injEq, List.not_mem_nil, or_false] at this
    rcases this with ⟨rfl, rfl⟩ | ⟨rfl, rfl⟩ | ⟨rfl, rfl⟩
    · exact .inl ⟨rfl, rfl⟩
    · exact .inr (.inl ⟨rfl, rfl⟩)
    · exact .inr (.inr ⟨rfl, rfl⟩)
  · cases h

theorem plain : Plain envC none manC pk where
  project := by
    refine ⟨by unfold Manifest.Proper; decide, fun n raw ty h => ?_⟩
    have := requires_deps h
    simp only [List.mem_cons, Prod.mk.injEq, List.not_mem_nil, or_false] at this
    rcases this with ⟨rfl, _⟩ | ⟨rfl, _⟩
    · exact ExW.plainE
    · exact ExW.plainN
  packages := by
    intro x mx h
    refine ⟨?_, ?_, rfl, ExW.content_nm x⟩
    · rcases known h with ⟨_, rfl⟩ | ⟨_, rfl⟩ | ⟨_, rfl⟩ <;> (unfold Manifest.Proper; decide)
    · intro n raw ty hq
      rcases known h with ⟨_, rfl⟩ | ⟨_, rfl⟩ | ⟨_, rfl⟩
      · have := requires_deps hq
        simp only [List.mem_cons, Prod.mk.injEq, List.not_mem_nil, or_false] at this
        rw [this.1]
        exact ExW.plainN
      · cases requires_deps hq
      · cases requires_deps hq

theorem plainStore : PlainStore envC none pk ExW.v treeC.graph where
  noLinks := by
    intro x mx r text _ h
    simp only [pk] at h
    split at h
    · cases h
    · split at h <;> cases h
  folders := fun x _ a b _ => ExW.folders x a b
  absolute := rfl
  digits := ExW.plainStore.digits
  apart := by
    have hg := (reach.sinv root_okC).pinv.ginv
    have hlen : treeC.graph.nodes.length = 4 := by decide +kernel
    have hd : ∀ i < 4, ∀ j < 4, ExW.v.hash (joinPath (treeC.graph.nodePath i)) = ExW.v.hash (joinPath (treeC.graph.nodePath j)) → i = j := by decide +kernel
    intro i j π ρ _ _ h1 h2 h
    obtain ⟨⟨x, hx⟩, e1⟩ := (locatedAt_iff hg.folderTree hg.ord).1 h1
    obtain ⟨⟨y, hy⟩, e2⟩ := (locatedAt_iff hg.folderTree hg.ord).1 h2
    have l1 := lt_of_get hx
    have l2 := lt_of_get hy
    rw [hlen] at l1 l2
    subst e1 e2
    exact hd i l1 j l2 h

theorem isRun {x : Pk} {b : Str} {q : Loc} (h : (b, q) ∈ pk.bins x) : b = run ∧ q = [ExW.pj] := by
  simp only [pk] at h
  split at h
  · simpa using h
  · cases h

theorem plainCommands : Iso.PlainCommands pk treeC.graph where
  name := by
    intro i nd b x _ h
    obtain ⟨rfl, rfl⟩ := isRun h
    exact ⟨.inl (by decide), by decide, by decide, by decide, by decide⟩
  file := by
    intro i nd b x _ h
    obtain ⟨rfl, rfl⟩ := isRun h
    decide
  once := by
    intro i nd b x x' _ h h'
    rw [(isRun h).2, (isRun h').2]

/-- the lockfile is written and read back -/
theorem written : ∃ l l' : Lockfile Nat Nat, toLockfile view treeC.graph = some l ∧ Lockfile.fromKdl codec (l.toKdl codec) = .ok l' := by
  have h : (toLockfile view treeC.graph).any (fun l => match Lockfile.fromKdl codec (l.toKdl codec) with | .ok _ => true | .error _ => false) = true := by
    decide +kernel
  obtain ⟨l, h1, h2⟩ := (Option.any_eq_true _ _).1 h
  split at h2
  · rename_i l' hl
    exact ⟨l, l', h1, hl⟩
  · cases h2

/-- the second resolve ends, whatever the registry says: by `C16_partial` nothing is fetched -/
theorem ends {l l' : Lockfile Nat Nat} (hl : toLockfile view treeC.graph = some l) (hrd : Lockfile.fromKdl codec (l.toKdl codec) = .ok l') :
    ∃ s : St, RReach { envC with fetch := fun _ => none, concurrency := 1 } (some (l'.tree toPackage)) ExL.root s ∧ s.done = true := by
  have h : (toLockfile view treeC.graph).any (fun l => match Lockfile.fromKdl codec (l.toKdl codec) with
      | .ok l' => match rrun { envC with fetch := fun _ => none, concurrency := 1 } (some (l'.tree toPackage)) (rinit ExL.root) [.pop, .pop, .pop, .pop] with
        | some (.ok s) => s.done
        | _ => false
      | .error _ => false) = true := by decide +kernel
  obtain ⟨l0, h1, h2⟩ := (Option.any_eq_true _ _).1 h
  rw [hl] at h1
  cases h1
  rw [hrd] at h2
  dsimp only at h2
  split at h2
  · rename_i s hs
    exact ⟨s, rrun_reach _ .init hs, h2⟩
  · cases h2

def disk : Disk Nat Nat := ⟨fun _ => none, none⟩

/-- the hypotheses of `C81_hoisted_partial` are met: a first apply unpacks the three packages, a second one nothing -/
example : ∃ (l' : Lockfile Nat Nat) (r0 : Disk Nat Nat × Hoisted.Ext) (s : St), Hoisted.applyTree pk view treeC.graph disk = some r0 ∧
    RReach { envC with fetch := fun _ => none, concurrency := 1 } (some (l'.tree toPackage)) ExL.root s ∧ s.done = true ∧
    ∃ r1, Hoisted.applyTree pk view s.graph r0.1 = some r1 ∧ r1.2.count = 0 ∧ ∀ p, ¬ Hoisted.InBin p → r1.1.tree p = r0.1.tree p := by
  obtain ⟨l, l', hl, hrd⟩ := written
  obtain ⟨s, hs, hd⟩ := ends hl hrd
  obtain ⟨r0, h1, _, h2⟩ := C81_hoisted_partial made plain reach finished sound (fun _ _ _ _ _ _ _ => answers _ _ _) unambiguous readsBack hl hrd disk ⟨rfl, .inl fun _ => rfl⟩
  obtain ⟨_, r1, h3, h4, _, h5, _⟩ := h2 _ _ s hs hd
  exact ⟨l', r0, s, h1, hs, hd, r1, h3, h4, h5⟩

/-- and there was a command that the second apply removes -/
example : (Hoisted.applyTree pk view treeC.graph disk).map (fun r => (r.2.count, (r.1.tree [Hoisted.binName, run]).isSome)) = some (3, true) := by
  decide +kernel

/-- the hypotheses of `C81_isolated_partial` are met: the command stays -/
example : ∃ (l' : Lockfile Nat Nat) (z0 : Tree × List Loc) (s : St), Iso.apply pk ExW.v treeC.graph [3, 2, 1, 0] disk = some z0 ∧
    RReach { envC with fetch := fun _ => none, concurrency := 1 } (some (l'.tree toPackage)) ExL.root s ∧ s.done = true ∧
    ∃ z1, Iso.apply pk ExW.v s.graph (List.range s.graph.nodes.length) ⟨z0.1, some ([] : IMap Str (LNode Nat Nat))⟩ = some z1 ∧ z1.1 = z0.1 := by
  obtain ⟨l, l', hl, hrd⟩ := written
  obtain ⟨s, hs, hd⟩ := ends hl hrd
  obtain ⟨z0, h1, _, h2⟩ := C81_isolated_partial made plain plainStore plainCommands reach finished sound (fun _ _ _ _ _ _ _ => answers _ _ _) unambiguous readsBack hl hrd disk
    ⟨rfl, .inl fun _ => rfl⟩ [3, 2, 1, 0] (by unfold Iso.Order; decide +kernel)
  obtain ⟨_, h3⟩ := h2 _ _ s hs hd
  obtain ⟨_, z1, _, _, _, h4, h5⟩ := h3 [] (List.range s.graph.nodes.length) (List.Perm.refl _)
  exact ⟨l', z0, s, h1, hs, hd, z1, h4, h5⟩

example : (Iso.apply pk ExW.v treeC.graph [3, 2, 1, 0] disk).map (fun r => (r.1 [Hoisted.binName, run]).isSome) = some true := by decide +kernel

end ExG

/-- C81 is false of the code when late answers gave a tree in which requirements load what they were not linked to: resolving again
from the lockfile just written, with the same registry, gives another tree. -/
theorem C81_resolve_fails : IsRoot ExL.env ExL.root ∧ RReach ExL.env none ExL.root ExL.treeA ∧ ExL.treeA.done = true ∧
    ∃ l, toLockfile ExL.view ExL.treeA.graph = some l ∧ ∃ s, RReach ExL.env (some (l.tree ExL.toPackage)) ExL.root s ∧ s.done = true ∧
      ¬ Alike ExL.treeA.graph s.graph := by
  obtain ⟨h1, h2, h3, h4, h5, h6, h7, h8⟩ := C16_fails
  exact ⟨h1, h2, h3, _, h4, _, h5, h6, fun h => h8 _ ((h.packages _ _).1 h7)⟩

end Again
end Oro
