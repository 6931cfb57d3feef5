import Verif.Props.BinModes
import Mathlib.Logic.Encodable.Basic
import Mathlib.Logic.Equiv.List
/-
C99: examples.
-/

set_option linter.unusedSectionVars false

namespace Oro
namespace Hoisted
namespace ExB

def root : Loc := [['w']]
def fileA : Loc := root ++ nmWord :: [['a'], Ex.pj]
def fileB : Loc := root ++ nmWord :: [['@', 's'], ['b'], Ex.pj]

def num (c : Bytes) : Nat := Encodable.encode (c.map UInt8.toNat)
def bytes (n : Nat) : Bytes := ((Encodable.decode (α := List Nat) n).getD []).map UInt8.ofNat
theorem bytes_num (c : Bytes) : bytes (num c) = c := by
  unfold bytes num
  rw [Encodable.encodek]
  simp only [Option.getD_some, List.map_map]
  have : UInt8.ofNat ∘ UInt8.toNat = id := by funext x; simp
  rw [this, List.map_id]

/-- a disk on which this tree can be seen; nobody but the owner can read its files -/
def fsOf (t : Tree) : Tar.FS where
  next := 0
  content := bytes
  mode _ := 0o600
  files p := match below (root ++ [nmWord]) p with
    | some r => match t r with
      | some (.file c) => some (num c)
      | _ => none
    | none => none
  dirs p := match below (root ++ [nmWord]) p with
    | some r => decide (t r = some .dir)
    | none => false
  store _ := none
  index _ := none

theorem seen_of {t : Tree} (h : ∀ p q, t p ≠ some (.link q)) : seen id root (fsOf t) = t := by
  funext p
  have hb : below (root ++ [nmWord]) (root ++ nmWord :: p) = some p := by
    rw [below_eq]; simp
  unfold seen
  simp only [fsOf, hb]
  cases hp : t p with
  | none => simp
  | some e =>
    cases e with
    | file c => simp [bytes_num]
    | dir => simp
    | link q => exact absurd hp (h p q)

/-- C99_executable, C99_only and C99_commands are about this: two packages are installed, then their commands are linked -/
example : ∃ r x, install Ex.pk2 Ex.v (Ex.pair 1 2) Ex.none_ = some r ∧ BReach Ex.pk2 1 root (Ex.pair 1 2) [1, 2] r.1.tree (fsOf r.1.tree) x ∧ x.links.done = true ∧
    Tar.Bits (fsOf r.1.tree) fileB 0o600 ∧ (∃ p q, nmWord :: p = [nmWord, binName, ['y']] ∧ x.links.tree p = some (.link q) ∧
      (Tar.Bits x.fs (root ++ nmWord :: q) 0o755 ∨ x.links.tree q = some .dir)) := by
  have h : (install Ex.pk2 Ex.v (Ex.pair 1 2) Ex.none_).map (fun r =>
      (r.2.pending, r.1.tree [['@', 's'], ['b'], Ex.pj], (lrun Ex.pk2 1 (Ex.pair 1 2) (linit [1, 2] r.1.tree) Ex.inTurn).map fun o => o.map fun y => y.done)) =
      some ([1, 2], some (.file [2]), some (some true)) := by decide +kernel
  obtain ⟨r, h1, h2⟩ := Option.map_eq_some_iff.1 h
  simp only [Prod.mk.injEq] at h2
  obtain ⟨hp, hf, h2⟩ := h2
  obtain ⟨o, h3, h4⟩ := Option.map_eq_some_iff.1 h2
  obtain ⟨y, h5, h6⟩ := Option.map_eq_some_iff.1 h4
  subst h5
  obtain ⟨f, hx⟩ := LReach.files (root := root) (fs := fsOf r.1.tree) (lreach_run _ .init h3)
  have hplain : ∀ (i : Nat) (nd : Node Str Nat Nat), (Ex.pair 1 2).nodes[i]? = some nd → ∀ p q, Ex.pk2.content nd.pkg p ≠ some (.link q) := by
    intro i nd _ p q
    simp only [Ex.pk2, Ex.pk]
    split
    · simp
    · split <;> simp
  have hfresh : Fresh Ex.none_ := ⟨rfl, .inl fun _ => rfl⟩
  have hno : ∀ p q, r.1.tree p ≠ some (.link q) := fun p q hx => by
    obtain ⟨l, y, _, e1, e2, _⟩ := fresh_install (v := Ex.v) (Ex.installable2 1 2) hfresh
    rw [e1] at h1
    cases h1
    rcases (e2.tree _ _).1 hx with hT | ⟨i, _, _, ⟨nd', π, r, hi, _, _, hc⟩ | ⟨h, _⟩⟩
    · unfold wiped at hT
      split at hT <;> cases hT
    · exact hplain i nd' hi _ _ hc
    · cases h
  refine ⟨r, _, h1, hx, h6, ⟨num [2], ?_, rfl⟩, ?_⟩
  · have hb : below (root ++ [nmWord]) fileB = some [['@', 's'], ['b'], Ex.pj] := by rw [below_eq]; simp [fileB]
    simp only [fsOf, hb, hf]
  · have hloc : LocatedAt (Ex.pair 1 2) 2 ([] ++ [Ex.sb]) := by
      rw [locatedAt_iff (Ex.tree 1 2) (ord_of (Ex.installable 1 2))]
      exact ⟨⟨_, rfl⟩, by decide +kernel⟩
    exact C99_commands (pr := id) (Ex.installable2 1 2) Ex.none_ hfresh r h1 (by rw [hp]) (fun p _ => by rw [seen_of hno]) hplain
      (fun i nd _ b hb => by simp only [Ex.pk2, List.mem_singleton] at hb; subst hb; show nmWord ∉ [Ex.pj]; decide) hx h6 2 ⟨Ex.sb, 2, [], some 0, [], []⟩ [] Ex.sb ['y'] [Ex.pj] rfl hloc
      (by decide) (by decide)

/-- the files of two packages, as their archives say: one with all permission bits, one that nobody but its owner can read -/
def fs : Tar.FS where
  next := 2
  content i := if i = 0 then [1] else [2]
  mode i := if i = 0 then 0o777 else 0o600
  files p := if p = fileA then some 0 else if p = fileB then some 1 else none
  dirs p := decide (p ≠ fileA) && decide (p ≠ fileB) && (p.isPrefixOf fileA || p.isPrefixOf fileB)
  store _ := none
  index _ := none

/-- C99_lone_partial: files with one name each -/
example (p : Loc) : Lone fs p := by
  intro i hi
  refine ⟨fun q hq => ?_, fun h => by simp [fs]⟩
  simp only [fs] at hi hq
  split at hi <;> split at hq
  · rename_i a b; rw [a, b]
  · cases hi; split at hq <;> cases hq
  · cases hq; split at hi <;> cases hi
  · split at hi
    · split at hq
      · rename_i a b; rw [a, b]
      · cases hq
    · cases hi

/-- linking the commands of these files: the bits that the archive gives are not kept -/
example : Tar.Bits (setExec (setExec fs fileA) fileB) fileA 0o755 ∧ Tar.Bits (setExec (setExec fs fileA) fileB) fileB 0o755 ∧ Tar.Bits fs fileA 0o777 :=
  ⟨⟨0, by decide +kernel, by decide +kernel⟩, ⟨1, by decide +kernel, by decide +kernel⟩, ⟨0, by decide +kernel, by decide +kernel⟩⟩

end ExB
end Hoisted
end Oro
