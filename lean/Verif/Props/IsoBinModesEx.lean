import Verif.Props.IsoBinModes
/-
C99, the isolated linker: examples.
-/

set_option linter.unusedSectionVars false

namespace Oro
namespace Iso
open Hoisted (Entry Tree Pkgs Disk storeName binName)
namespace Ex

def rootB : Loc := [['w']]
/-- the files of packages 3 and 1, as their archives say: only their owner can read them -/
def fileC : Loc := rootB ++ nmWord :: (home v quad 3 ++ [pj])
def fileA1 : Loc := rootB ++ nmWord :: (home v quad 1 ++ [pj])
def fsB : Tar.FS where
  next := 2
  content _ := [7]
  mode _ := 0o600
  files p := if p = fileC then some 0 else if p = fileA1 then some 1 else none
  dirs _ := false
  store _ := none
  index _ := none

/-- C99_isolated and C99_isolated_only are about this: the command of `c`, for the project -/
example : ∃ y z f, install pk3 v quad [2, 0, 1, 3] none_ = some y ∧ linkBinsFS pk3 v quad rootB y.bins ((y.tree, y.cache), fsB) = some (z, f) ∧
    Tar.Bits fsB fileC 0o600 ∧ Tar.Bits f fileC 0o755 := by
  have hq := installable_bins (pk := pk) (pk' := pk3) rfl inst_quad
  obtain ⟨z, h1, hinst, h2⟩ := C35_isolated_partial pk3 v quad hq (plain_3 quad) none_ fresh_ [2, 0, 1, 3] quad_order
  obtain ⟨y, z', f, hy, hz, hz', hA⟩ := C99_isolated pk3 v quad hq (plain_3 quad) none_ fresh_ [2, 0, 1, 3] quad_order rootB fsB
  rw [h1] at hz'
  cases hz'
  have hop := (h2 0 3 _ ['c'] [pj] [7] (by decide) rfl rfl (by decide) rfl (by
    intro j nj x' hj hn hb
    have hj' : j = 1 ∨ j = 2 ∨ j = 3 := by simp [depsOf, quad] at hj; exact hj
    rcases hj' with rfl | rfl | rfl
    · cases hn; simp [pk3] at hb
    · cases hn; simp [pk3] at hb
    · rfl)).1
  have hat : z.1 (home v quad 3 ++ [pj]) = some (.file [7]) := at_home hq hinst (by decide) (nd := ⟨['c'], 7, [], some 0, [], []⟩) rfl (by simp) (by decide)
  exact ⟨y, z, f, hy, hz, ⟨0, by simp [fsB], rfl⟩, (hA 0 _ ['c'] _ [7] rfl hop hat).1 (by simp [fsB, fileC])⟩

/-- C99 is false of the isolated linker: here only package `a` declares a command, called `c`; linking it makes a file of package `c`
executable, which declares no commands, and not the file that `a` declares. -/
theorem C99_isolated_wrong_fails : PlainCommands pk1 quad ∧ (∀ nd, quad.nodes[3]? = some nd → pk1.bins nd.pkg = []) ∧
    (∀ nd, quad.nodes[1]? = some nd → pk1.bins nd.pkg = [(['c'], [pj])]) ∧
    ∃ y z f, install pk1 v quad [2, 0, 1, 3] none_ = some y ∧ linkBinsFS pk1 v quad rootB y.bins ((y.tree, y.cache), fsB) = some (z, f) ∧
    Tar.Bits fsB fileC 0o600 ∧ Tar.Bits f fileC 0o755 ∧ Tar.Bits f fileA1 0o600 := by
  have h : ((install pk1 v quad [2, 0, 1, 3] none_).bind fun y => (linkBinsFS pk1 v quad rootB y.bins ((y.tree, y.cache), fsB)).map fun r => (r.2.files fileC, r.2.mode 0, r.2.files fileA1, r.2.mode 1)) =
      some (some 0, 0o755, some 1, 0o600) := by decide +kernel
  obtain ⟨y, h1, h2⟩ := Option.bind_eq_some_iff.1 h
  obtain ⟨⟨z, f⟩, h3, h4⟩ := Option.map_eq_some_iff.1 h2
  simp only [Prod.mk.injEq] at h4
  exact ⟨plain_1 quad, fun nd hn => by cases hn; rfl, fun nd hn => by cases hn; rfl, y, z, f, h1, h3, ⟨0, by simp [fsB], rfl⟩, ⟨0, h4.1, h4.2.1⟩, ⟨1, h4.2.2⟩⟩

end Ex
end Iso
end Oro
