import Verif.Props.FurtherPruned
import Verif.Props.InstallRunEx
/-
C95: such an installation.
-/

set_option linter.unusedSectionVars false

namespace Oro
namespace Hoisted
namespace ExF
open ExI

/-- where @s/b is -/
def home : Loc := [['w'], nmWord, ['@', 's'], ['b']]

/-- the tree of `Props/InstallRunEx.lean`; @s/b is there already, its files are links to the cache -/
def fs : Tar.FS :=
  { ExI.fs with
    files := fun p => if p = home ++ [['a']] then some 0 else if p = home ++ [Tar.kPackageJson] then some 1 else none
    dirs := fun p => p.isPrefixOf home }

theorem file {p : Loc} (h : fs.files p ≠ none) : p = home ++ [['a']] ∨ p = home ++ [Tar.kPackageJson] := by
  simp only [fs] at h
  split at h
  · left; assumption
  · split at h
    · right; assumption
    · exact absurd rfl h

theorem fs_sane : Tar.Sane fs := by
  refine ⟨fun p i h => ?_, ExI.fs_sane.2⟩
  simp only [fs] at h
  split at h
  · cases h; decide
  · split at h
    · cases h; decide
    · cases h

theorem fs_honest : Tar.Honest ExT.env fs := ExI.fs_honest

theorem proper : Tar.Proper fs := by
  refine ⟨fun d hd q hq => ?_, fun p hp => ?_, fun p hp => ?_⟩
  · simp only [fs, List.isPrefixOf_iff_prefix] at hd ⊢
    exact hq.trans hd
  · rcases file hp with rfl | rfl <;> decide +kernel
  · rcases file hp with rfl | rfl <;> decide +kernel

theorem locB : LocatedAt g 2 [Ex.sb] := .inside (nd := ⟨Ex.sb, 6, [], some 0, [], []⟩) (π := []) rfl rfl (.root rfl)

theorem content6 {r : Loc} {e : Entry} (h : pk.content 6 r = some e) :
    (r = [] ∧ e = .dir) ∨ (r = [['a']] ∧ e = .file [10]) ∨ (r = [Tar.kPackageJson] ∧ e = .file [8]) := by
  obtain ⟨_, h2, h3⟩ := archives 6 (.inr (.inr rfl))
  have hes : ∀ f ∈ (ExT.env.untar [6]).1, ((RPath.components f.header).tail = [Comp.normal ['a']] ∧ f.content = [10]) ∨
      ((RPath.components f.header).tail = [Comp.normal Tar.kPackageJson] ∧ f.content = [8]) := by decide +kernel
  rcases (packed_contentOf id h2 h3 r e).1 h with ⟨f, hf, _, ht, rfl⟩ | ⟨rfl, f, hf, _, s, hs, ht⟩
  · rcases hes f hf with ⟨h1, hc⟩ | ⟨h1, hc⟩
    · rw [h1] at ht
      exact .inr (.inl ⟨(map_normal_inj (a := [['a']]) ht).symm, by rw [hc]; rfl⟩)
    · rw [h1] at ht
      exact .inr (.inr ⟨(map_normal_inj (a := [Tar.kPackageJson]) ht).symm, by rw [hc]; rfl⟩)
  · refine .inl ⟨?_, rfl⟩
    have len : (r ++ s).length = 1 := by
      rcases hes f hf with ⟨h1, _⟩ | ⟨h1, _⟩
      · rw [h1] at ht; rw [← map_normal_inj (a := [['a']]) ht]; rfl
      · rw [h1] at ht; rw [← map_normal_inj (a := [Tar.kPackageJson]) ht]; rfl
    rw [List.length_append] at len
    have : s.length ≠ 0 := fun hz => hs (List.length_eq_zero_iff.1 hz)
    exact List.length_eq_zero_iff.1 (by omega)

theorem further : Further ExT.env build id pk g o fetch (fun b => [b]) fs where
  tree := installable
  proper := proper
  modules := by decide +kernel
  expected p hb e he := by
    unfold seen at he
    cases hf : fs.files (o.root ++ nmWord :: p) with
    | some k =>
      have hx := file (p := o.root ++ nmWord :: p) (by rw [hf]; simp)
      rw [hf] at he
      simp only [Option.some.injEq] at he
      rcases hx with hx | hx
      · rw [hx] at hf
        have hk : k = 0 := by revert hf; simp only [fs, if_true, Option.some.injEq]; exact fun h => h.symm
        subst hk
        have hp : p = [['@', 's'], ['b'], ['a']] := by simpa [o, home] using hx
        subst hp
        subst he
        exact .inl ⟨2, _, [Ex.sb], [['a']], by decide, rfl, locB, by decide, by decide +kernel⟩
      · rw [hx] at hf
        have hk : k = 1 := by
          have : fs.files (home ++ [Tar.kPackageJson]) = some 1 := by decide +kernel
          rw [this] at hf; cases hf; rfl
        subst hk
        have hp : p = [['@', 's'], ['b'], Tar.kPackageJson] := by simpa [o, home] using hx
        subst hp
        subst he
        exact .inl ⟨2, _, [Ex.sb], [Tar.kPackageJson], by decide, rfl, locB, by decide, by decide +kernel⟩
    | none =>
      rw [hf] at he
      simp only at he
      split at he
      · rename_i hd
        cases he
        simp only [fs, List.isPrefixOf_iff_prefix] at hd
        refine .inr ⟨rfl, .inr ⟨2, [Ex.sb], by decide, locB, ?_⟩⟩
        have : home = [['w']] ++ folder [Ex.sb] := by decide
        rw [this] at hd
        exact (List.prefix_append_right_inj _).1 hd
      · cases he
  whole i nd h0 hi hs r e hb hc := by
    rcases i with _ | _ | _ | _ | i
    · exact absurd rfl h0
    · exact absurd (by decide +kernel) hs
    · cases hi
      rcases content6 hc with ⟨rfl, rfl⟩ | ⟨rfl, rfl⟩ | ⟨rfl, rfl⟩ <;> decide +kernel
    · exact absurd (by decide +kernel) hs
    · cases hi
  packages i nd j h0 hi hj _ := by
    obtain ⟨a, b, c, d, e, f⟩ := start.packages i nd j h0 hi hj
    exact ⟨a, b, c, d, e, f⟩
  packed := start.packed
  built := start.built
  sight := start.sight
  reading := start.reading

/-- the installation ends, and then everything is in place -/
example : ∃ m, Installed pk g (seen id o.root ((XRun.init fs).run ExT.env build (jobsFor o g fetch) ((List.range m).map s)).runs.fs) := by
  obtain ⟨M, hM⟩ := C95_ends ExT.ord_perm noCol fs_sane fs_honest further s turns (by
    intro i nd h0 hi N
    have : i < 4 := by rcases nodes h0 hi with ⟨h, _⟩ | ⟨h, _⟩ | ⟨h, _⟩ <;> omega
    exact ⟨4 * N + i, by omega, by unfold s; omega⟩)
  exact ⟨M, (C95_installed ExT.ord_perm noCol fs_sane fs_honest further _ (turns M) (hM M (Nat.le_refl _))).1⟩

/-- after 200 turns it is over; @s/b was passed over -/
example : (List.range 4).map ((XRun.init fs).run ExT.env build (jobsFor o g fetch) ((List.range 200).map s)).phase =
    [.waiting, .extracted false, .skipped, .extracted true] := by decide +kernel

/-- the same with half of @s/b, as an interrupted installation leaves it -/
def half : Tar.FS := { fs with files := fun p => if p = home ++ [['a']] then some 0 else none }

end ExF

/-- Without the premise that packages are there completely or not at all, this fails: what an interrupted installation left of a
package is taken for the package. -/
theorem C95_half_fails : Tar.Proper ExF.half ∧ Tar.Sane ExF.half ∧ Tar.Honest ExT.env ExF.half ∧
    ListOrder (jobsFor ExI.o ExI.g ExI.fetch) ((List.range 200).map ExI.s) ∧
    (List.range 4).map ((XRun.init ExF.half).run ExT.env ExI.build (jobsFor ExI.o ExI.g ExI.fetch) ((List.range 200).map ExI.s)).phase =
      [.waiting, .extracted false, .skipped, .extracted true] ∧
    ¬ Installed ExI.pk ExI.g (seen id ExI.o.root
      ((XRun.init ExF.half).run ExT.env ExI.build (jobsFor ExI.o ExI.g ExI.fetch) ((List.range 200).map ExI.s)).runs.fs) := by
  have file : ∀ {p : Loc}, ExF.half.files p ≠ none → p = ExF.home ++ [['a']] := by
    intro p h
    simp only [ExF.half] at h
    split at h
    · assumption
    · exact absurd rfl h
  refine ⟨⟨ExF.proper.closed, fun p hp => ?_, fun p hp => ?_⟩, ⟨fun p i h => ?_, ExI.fs_sane.2⟩, ExI.fs_honest, ExI.turns 200, by decide +kernel,
    fun h => ?_⟩
  · rw [file hp]; decide +kernel
  · rw [file hp]; decide +kernel
  · simp only [ExF.half] at h
    split at h
    · cases h; decide
    · cases h
  · have h1 := (h [['@', 's'], ['b'], Tar.kPackageJson] (by
      rintro ⟨q, r, hq, _⟩
      have : binName ∈ [['@', 's'], ['b'], Tar.kPackageJson] := by rw [hq]; simp
      revert this
      decide +kernel) (.file [8])).2 (.inl ⟨2, _, [Ex.sb], [Tar.kPackageJson], by decide, rfl, ExF.locB, by decide, by decide +kernel⟩)
    revert h1
    decide +kernel

end Hoisted
end Oro
