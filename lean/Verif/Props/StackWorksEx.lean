import Verif.Props.StackEx
import Verif.Props.StackEnds
import Verif.Props.StackWorks
import Verif.Props.WorksEx
/- C88 and C90: the registry of StackEx.lean, resolved to the end and installed. -/

set_option linter.unusedSectionVars false

namespace Oro
namespace Stack
namespace ExK
open PSpec Nassun Fetch Docs
open Meta (CManifest CDist CVersion CPackument)
open Hoisted (Tree Pkgs Disk)

/-- only a depends on anything -/
theorem listed_dep {s : Option Str} {m : Str} {p : CPackument Nat Bundled Deprecation} (h : Knows k s m p) {x : Nat}
    {cv : CVersion Nat Bundled Deprecation} (hx : p.versions.get? x = some cv) (hd : cv.manifest.dependencies ≠ []) : m = ['a'] := by
  have hc := corgi_iff.2 h
  unfold Sys.corgi at hc
  have hmem := IMap.mem_of_get? hx
  obtain ⟨d, hd', hr⟩ := Option.bind_eq_some_iff.1 hc
  have hd' : (if m = ['a'] then some docA else if m = ['b'] then some docB else none) = some d := hd'
  split at hd'
  · assumption
  · split at hd'
    · cases hd'
      have : ((readPackument k.base.spec.parseV k.url docB).map fun p => decide (∀ e ∈ p.versions, e.2.manifest.dependencies = [])) = some true := by
        decide +kernel
      rw [hr] at this
      simp only [Option.map_some, Option.some.injEq, decide_eq_true_eq] at this
      exact absurd (this _ hmem) hd
    · cases hd'

def rank (n : Str) (_ : Nat) : Nat := if n = ['a'] then 1 else 0

theorem no_cycles : NoCycles k man rank 2 1 where
  project n text s m q x cv _ _ _ := by unfold rank; split <;> omega
  package n0 s0 m0 q0 x0 cv0 n text s m q x cv hs ho hin ha _ := by
    obtain ⟨p, h1, _, h2⟩ := ho
    obtain ⟨_, h3, _, h4, _⟩ := listed h1 h2
    rw [h3, List.append_nil] at hin
    have hm := listed_dep h1 h2 (fun h => by rw [h] at hin; cases hin)
    have hn : n0 = ['a'] := by
      rcases sought_known hs with ⟨h, _⟩ | ⟨_, _, h, _⟩ | ⟨_, _, h, _⟩
      · exact h
      · rw [hm] at h; exact absurd h (by decide)
      · rw [hm] at h; exact absurd h (by decide)
    have hb : n = ['b'] := by
      rcases h4 with h4 | h4 <;> rw [h4] at hin
      · cases hin
      · simp only [List.mem_cons, Prod.mk.injEq, List.not_mem_nil, or_false] at hin
        exact hin.1
    rw [hn, hb]
    show (0 : Nat) < 1
    decide
  width n s m q x cv _ ho := by
    obtain ⟨p, h1, _, h2⟩ := ho
    obtain ⟨_, h3, _, h4, _⟩ := listed h1 h2
    rw [h3]
    rcases h4 with h4 | h4 <;> rw [h4] <;> decide

/-- it ends, whatever the order of the answers, after at most 23 events -/
example : ∃ root, Node.new k.env.parse ['p'] (.dir ['p'] ['.']) man true = some root ∧
    (∀ evs r, rrun k.env none (rinit root) evs = some r → evs.length ≤ 23) ∧
    ∃ evs s, rrun k.env none (rinit root) evs = some (.ok s) ∧ s.done = true := by
  obtain ⟨root, h1, h2, h3⟩ := C88_total_partial usual available slash world_total (by decide) no_cycles ['p'] (.dir ['p'] ['.'])
  refine ⟨root, h1, fun evs r h => ?_, h3⟩
  obtain ⟨_, _, h4, _⟩ := h2 evs r h
  exact h4

/-- every archive is a folder with one file, which tells the version -/
def pk : Pkgs (Resolution Nat Nat Str Str) where
  content r p := if p = [] then some .dir else if p = [Works.ExW.pj] then some (.file (match r with
    | .npm _ v _ _ => [UInt8.ofNat v]
    | _ => [])) else none
  scripts _ := false
  bins _ := []

def disk : Disk Nat Str := ⟨fun _ => none, none⟩

theorem plain_c (c : Char) (h : c ∈ ['a', 'b', 'c']) : Works.PlainName [c] := by
  simp only [List.mem_cons, List.not_mem_nil, or_false] at h
  rcases h with rfl | rfl | rfl <;>
    exact ⟨.inl (by decide), by decide, by decide, by decide, (by intro s h; cases h), by decide⟩

theorem packed : Packed k man pk where
  names n s m q h := by
    rcases sought_known h with ⟨rfl, _⟩ | ⟨rfl, _⟩ | ⟨rfl, _⟩ <;> exact plain_c _ (by decide)
  folder n s m q x cv r _ _ _ := by
    refine ⟨rfl, fun l => ?_⟩
    have : nmWord :: l ≠ [Works.ExW.pj] := by intro h; cases h
    simp [pk, this]

theorem packedStore : PackedStore k man pk Works.ExW.v tree.graph where
  noLinks := by
    intro n s m q x cv r l text _ _ _ h
    simp only [pk] at h
    split at h
    · cases h
    · split at h <;> cases h
  folders := by
    intro n s m q x cv r a b _ _ _ hb h
    cases a with
    | nil => rfl
    | cons c a =>
      have h1 : c :: a ++ b ≠ [] := by simp
      have h2 : c :: a ++ b ≠ [Works.ExW.pj] := by
        intro e
        have e1 := congrArg List.length e
        have e2 := List.length_pos_iff.2 hb
        simp only [List.length_append, List.length_cons, List.length_nil] at e1
        omega
      simp only [pk, if_neg h1, if_neg h2] at h
      exact absurd rfl h
  absolute := rfl
  digits := Works.ExW.plainStore.digits
  apart := by
    have hg := (reach.sinv ⟨_, _, _, root_new⟩).pinv.ginv
    have hlen : tree.graph.nodes.length = 4 := by decide +kernel
    have hd : ∀ i < 4, ∀ j < 4, Works.ExW.v.hash (joinPath (tree.graph.nodePath i)) = Works.ExW.v.hash (joinPath (tree.graph.nodePath j)) → i = j := by
      decide +kernel
    intro i j π ρ _ _ h1 h2 h
    obtain ⟨⟨x, hx⟩, e1⟩ := (locatedAt_iff hg.folderTree hg.ord).1 h1
    obtain ⟨⟨y, hy⟩, e2⟩ := (locatedAt_iff hg.folderTree hg.ord).1 h2
    have l1 := lt_of_get hx
    have l2 := lt_of_get hy
    rw [hlen] at l1 l2
    subst e1 e2
    exact hd i l1 j l2 h

/-- installed, by either linker, the project works -/
example : ∃ r, Hoisted.applyTree pk k.view tree.graph disk = some r ∧ DocumentsWork k man pk Works.ExW.v r.1.tree :=
  C90_flat_partial usual slash world_total one_name proper root_new reach done flat packed disk ⟨rfl, .inl fun _ => rfl⟩
example : ∃ y, Iso.install pk Works.ExW.v tree.graph [3, 2, 1, 0] disk = some y ∧ DocumentsWork k man pk Works.ExW.v y.tree :=
  C90_isolated_partial usual slash world_total one_name proper root_new reach done packed packedStore disk ⟨rfl, .inl fun _ => rfl⟩ _
    (by unfold Iso.Order; decide +kernel)

/-- where Node finds b from a, and which version that is -/
example : (Hoisted.applyTree pk k.view tree.graph disk).map (fun r => (Iso.finds Works.ExW.v r.1.tree [['a']] ['b'],
    decide (r.1.tree [['b'], Works.ExW.pj] = some (.file [2])))) = some (some [['b']], true) := by decide +kernel

end ExK
end Stack
end Oro
