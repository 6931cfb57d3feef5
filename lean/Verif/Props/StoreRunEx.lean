import Verif.Props.StoreRun
import Verif.Props.InstallRunEx
/-
C93: such an installation.
-/

set_option linter.unusedSectionVars false

namespace Oro
namespace Iso
namespace ExI
open Hoisted (Bytes Entry contentOf packed_contentOf)
open Hoisted.ExI (pk fetch o fs archives fs_sane fs_honest noCol c)

/-- the packages of `Hoisted.ExI.g`; the project needs a and @s/b, a needs c and @s/b -/
def g : Graph Str UInt8 Nat := { Hoisted.ExI.g with edges := [⟨0, 1, 0, .prod⟩, ⟨0, 2, 0, .prod⟩, ⟨1, 3, 0, .prod⟩, ⟨1, 2, 0, .prod⟩] }

/-- (scripts, commands) -/
def build : Bytes → Option (Bool × Bool)
  | [7] => some (true, false)
  | [8] => some (false, false)
  | _ => none

theorem nodes {i : Nat} {nd : Node Str UInt8 Nat} (h0 : i ≠ 0) (hi : g.nodes[i]? = some nd) :
    (i = 1 ∧ nd.pkg = 2 ∧ nd.name = ['a']) ∨ (i = 2 ∧ nd.pkg = 6 ∧ nd.name = Ex.sb) ∨ (i = 3 ∧ nd.pkg = 1 ∧ nd.name = c) :=
  Hoisted.ExI.nodes h0 hi

theorem which {i : Nat} {nd : Node Str UInt8 Nat} (h0 : i ≠ 0) (hi : g.nodes[i]? = some nd) : nd.pkg = 1 ∨ nd.pkg = 2 ∨ nd.pkg = 6 :=
  Hoisted.ExI.which h0 hi

theorem tree : FolderTree g := by
  have h := Hoisted.ExI.tree
  refine ⟨h.root, h.listed, h.lists, h.unique, ?_⟩
  intro i nd hi
  have w0 : Within g 0 0 := .refl rfl
  rcases i with _ | _ | _ | _ | i
  · exact w0
  · exact .up rfl rfl w0
  · exact .up rfl rfl w0
  · exact .up rfl rfl (.up rfl rfl w0)
  · cases hi

theorem packed {i : Nat} {nd : Node Str UInt8 Nat} (h0 : i ≠ 0) (hi : g.nodes[i]? = some nd) :
    Hoisted.Packed id (pk.content nd.pkg) (ExT.env.untar [nd.pkg]).1 :=
  let ⟨_, h2, h3⟩ := archives nd.pkg (which h0 hi)
  packed_contentOf id h2 h3

theorem installable : Installable pk Ex.v g where
  tree := tree
  order := by
    intro i nd p hi hp
    rcases i with _ | _ | _ | _ | i <;> cases hi <;> cases hp <;> decide
  names := by
    intro i nd h0 hi
    rcases nodes h0 hi with ⟨_, _, h⟩ | ⟨_, _, h⟩ | ⟨_, _, h⟩ <;> rw [h]
    · exact ⟨Ex.nameA, by decide⟩
    · exact ⟨Ex.nameSB, by decide⟩
    · exact ⟨Ex.nameC, by decide⟩
  plain := by
    intro i nd h0 hi
    rcases nodes h0 hi with ⟨_, _, h⟩ | ⟨_, _, h⟩ | ⟨_, _, h⟩ <;> rw [h] <;> decide
  folders := by
    intro i nd a b h0 hi hb hx
    cases he : pk.content nd.pkg (a ++ b) with
    | none => exact absurd he hx
    | some e =>
      refine (packed h0 hi _ _).2 (.inr ?_)
      rcases (packed h0 hi _ _).1 he with ⟨f, hf, hr, ht, _⟩ | ⟨_, f, hf, hr, s, _, ht⟩
      · exact ⟨rfl, f, hf, hr, b, hb, ht⟩
      · exact ⟨rfl, f, hf, hr, b ++ s, by simp [hb], by rw [ht, List.append_assoc]⟩
  dirs := Hoisted.ExI.installable.dirs
  bundled := Hoisted.ExI.installable.bundled
  noBin := by
    intro i nd h0 hi
    rcases nodes h0 hi with ⟨_, _, h⟩ | ⟨_, _, h⟩ | ⟨_, _, h⟩ <;> rw [h] <;> decide
  noLinks := by
    intro i nd r text h0 hi hx
    rcases (packed h0 hi _ _).1 hx with ⟨_, _, _, _, h⟩ | ⟨h, _⟩ <;> cases h
  known := by
    intro e he
    simp only [g, List.mem_cons, List.not_mem_nil, or_false] at he
    rcases he with rfl | rfl | rfl | rfl <;> exact ⟨by decide, _, rfl⟩
  sources := by
    intro e he
    simp only [g, List.mem_cons, List.not_mem_nil, or_false] at he
    rcases he with rfl | rfl | rfl | rfl <;> exact ⟨_, rfl⟩
  single := by
    intro i
    rcases i with _ | _ | i
    · decide
    · decide
    · have : depsOf g (i + 2) = [] := by simp [depsOf, g]
      rw [this]; simp
  absolute := rfl
  digits _ := Ex.digits_
  apart := by
    intro i j nd nd' h0 h0' hi hj hn _
    rcases nodes h0 hi with ⟨h1, _, h2⟩ | ⟨h1, _, h2⟩ | ⟨h1, _, h2⟩ <;>
      rcases nodes h0' hj with ⟨h3, _, h4⟩ | ⟨h3, _, h4⟩ | ⟨h3, _, h4⟩ <;> rw [h1, h3] <;> rw [h2, h4] at hn <;> revert hn <;> decide

theorem start : Start ExT.env build id pk Ex.v g o fetch (fun b => [b]) fs where
  tree := installable
  bare := Hoisted.ExI.start.bare
  packages i nd j h0 hi hj := by
    have hj' : Hoisted.jobsFor o Hoisted.ExI.g fetch i = some ⟨o.root ++ nmWord :: Hoisted.targetDir Hoisted.ExI.g i, o.cache, o.mode, (fetch nd.pkg).1, (fetch nd.pkg).2⟩ := by
      unfold Hoisted.jobsFor
      rw [if_neg h0, show Hoisted.ExI.g.nodes[i]? = some nd from hi]
      rfl
    have h := Hoisted.ExI.start.packages i nd _ h0 hi hj'
    unfold jobsFor at hj
    rw [if_neg h0, hi] at hj
    cases hj
    exact ⟨h.fits, h.complete, h.plain, h.sound, h.served, h.cached⟩
  packed i nd h0 hi := packed h0 hi
  built i nd h0 hi := by
    rcases which h0 hi with h | h | h <;> rw [h]
    · exact ⟨ExT.f ExT.pj [7], by decide +kernel, rfl, by decide +kernel, rfl⟩
    · exact ⟨ExT.f ExT.pj [8], by decide +kernel, rfl, by decide +kernel, rfl⟩
    · exact ⟨ExT.f ExT.pj [8], by decide +kernel, rfl, by decide +kernel, rfl⟩
  sight c c' h := ExT.str_inj _ _ h
  reading c c' h := by rw [ExT.str_inj _ _ h]

/-- taking turns -/
def s (m : Nat) : Nat := m % 4

/-- this installation ends, and then everything is in place -/
example : ∃ m, Exact pk Ex.v g (seen id o.root ((LRun.init o fs).run ExT.env build o Ex.v g fetch ((List.range m).map s)).runs.fs
    ((LRun.init o fs).run ExT.env build o Ex.v g fetch ((List.range m).map s)).links) := by
  obtain ⟨M, hM⟩ := C93_ends ExT.ord_perm noCol fs_sane fs_honest start s (by
    intro i nd hi N
    have : i < 4 := by
      by_contra hge
      rw [List.getElem?_eq_none (by show 4 ≤ i; omega)] at hi
      cases hi
    exact ⟨4 * N + i, by omega, by unfold s; omega⟩)
  exact ⟨M, (C93_installed ExT.ord_perm noCol fs_sane fs_honest start _ (hM M (Nat.le_refl _))).1⟩

/-- after 200 turns it is over -/
example : (List.range 4).map ((LRun.init o fs).run ExT.env build o Ex.v g fetch ((List.range 200).map s)).phase =
    [.finished none, .finished (some (false, false)), .finished (some (false, false)), .finished (some (true, false))] := by decide +kernel

/-- the link in the project's node_modules to @s/b leads into the store -/
example : ((LRun.init o fs).run ExT.env build o Ex.v g fetch ((List.range 200).map s)).links [['@', 's'], ['b']] =
    some (diff (home Ex.v g 2) [['@', 's']]) := by decide +kernel

end ExI
end Iso
end Oro
