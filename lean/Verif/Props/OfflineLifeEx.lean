import Verif.Props.OfflineLife
import Verif.Props.FileLifeEx
import Verif.Props.OfflineEx
/-
C96, C97: a project whose tree changes.
-/

set_option linter.unusedSectionVars false

namespace Oro
namespace Hoisted
namespace ExK
open ExI

/-- `a` is upgraded to a package that needs nothing -/
def g2 : Graph Str UInt8 Nat :=
  ⟨[⟨[], 0, [], none, [(['a'], 1), (Ex.sb, 2)], []⟩, ⟨['a'], 6, [], some 0, [], []⟩, ⟨Ex.sb, 6, [], some 0, [], []⟩], []⟩

theorem tree2 : FolderTree g2 := by
  refine ⟨⟨_, rfl, rfl⟩, ?_, ?_, ?_, ?_⟩
  · intro i nd hi h0
    rcases i with _ | _ | _ | i
    · exact absurd rfl h0
    · cases hi; exact ⟨0, _, rfl, rfl, rfl⟩
    · cases hi; exact ⟨0, _, rfl, rfl, rfl⟩
    · cases hi
  · intro p pn n c hp hc
    have hm := IMap.mem_of_get? hc
    rcases p with _ | _ | _ | p
    · cases hp
      simp only [List.mem_cons, Prod.mk.injEq, List.not_mem_nil, or_false] at hm
      rcases hm with ⟨rfl, rfl⟩ | ⟨rfl, rfl⟩
      · exact ⟨_, rfl, rfl, rfl⟩
      · exact ⟨_, rfl, rfl, rfl⟩
    · cases hp; simp at hm
    · cases hp; simp at hm
    · cases hp
  · intro p pn hp
    rcases p with _ | _ | _ | p <;> cases hp <;> (unfold IMap.WF IMap.keys; simp [Ex.sb])
  · intro i nd hi
    have w0 : Within g2 0 0 := .refl rfl
    rcases i with _ | _ | _ | i
    · exact w0
    · exact .up rfl rfl w0
    · exact .up rfl rfl w0
    · cases hi

theorem nodes2 {i : Nat} {nd : Node Str UInt8 Nat} (h0 : i ≠ 0) (hi : g2.nodes[i]? = some nd) :
    (i = 1 ∧ nd.pkg = 6 ∧ nd.name = ['a']) ∨ (i = 2 ∧ nd.pkg = 6 ∧ nd.name = Ex.sb) := by
  rcases i with _ | _ | _ | i
  · exact absurd rfl h0
  · cases hi; exact .inl ⟨rfl, rfl, rfl⟩
  · cases hi; exact .inr ⟨rfl, rfl, rfl⟩
  · cases hi

theorem six {i : Nat} {nd : Node Str UInt8 Nat} (h0 : i ≠ 0) (hi : g2.nodes[i]? = some nd) : nd.pkg = 6 := by
  rcases nodes2 h0 hi with ⟨_, h, _⟩ | ⟨_, h, _⟩ <;> exact h

theorem installable2 : Installable pk g2 where
  tree := tree2
  order := by
    intro i nd p hi hp
    rcases i with _ | _ | _ | i <;> cases hi <;> cases hp <;> decide
  names := by
    intro i nd h0 hi
    rcases nodes2 h0 hi with ⟨_, _, h⟩ | ⟨_, _, h⟩ <;> rw [h]
    · exact Ex.instA
    · exact Ex.instB
  dirs := by
    intro i nd h0 hi
    rw [six h0 hi]
    exact installable.dirs 2 _ (by decide) rfl
  bundled := by
    intro i nd r h0 hi
    rw [six h0 hi]
    exact installable.bundled 2 _ r (by decide) rfl

theorem located1 {i : Nat} {π : List Str} (h : LocatedAt g i π) :
    (i = 0 ∧ π = []) ∨ (i = 1 ∧ π = [['a']]) ∨ (i = 2 ∧ π = [Ex.sb]) ∨ (i = 3 ∧ π = [['a'], c]) := by
  obtain ⟨⟨nd, hn⟩, hp⟩ := (locatedAt_iff ExI.tree (ord_of installable)).1 h
  rcases i with _ | _ | _ | _ | i
  · exact .inl ⟨rfl, hp.symm⟩
  · exact .inr (.inl ⟨rfl, hp.symm⟩)
  · exact .inr (.inr (.inl ⟨rfl, hp.symm⟩))
  · exact .inr (.inr (.inr ⟨rfl, hp.symm⟩))
  · cases hn

theorem located2 {i : Nat} {π : List Str} (h : LocatedAt g2 i π) :
    (i = 0 ∧ π = []) ∨ (i = 1 ∧ π = [['a']]) ∨ (i = 2 ∧ π = [Ex.sb]) := by
  obtain ⟨⟨nd, hn⟩, hp⟩ := (locatedAt_iff tree2 (ord_of installable2)).1 h
  rcases i with _ | _ | _ | i
  · exact .inl ⟨rfl, hp.symm⟩
  · exact .inr (.inl ⟨rfl, hp.symm⟩)
  · exact .inr (.inr ⟨rfl, hp.symm⟩)
  · cases hn

def lock : IMap Str (LNode Nat Nat) := ((toLockfile v g).map (·.packages)).getD []

theorem lock_eq {l} (h : toLockfile v g = some l) : l.packages = lock := by unfold lock; rw [h]; rfl

theorem noticed2 : Noticed pk v g g2 lock := by
  intro n hn hc ρ c'
  have hna : n ≠ ['a'] := by
    rintro rfl
    rcases hc with h | ⟨nd, i, ideal, act, h1, h2, h3, h4, h5⟩
    · exact absurd h (by decide)
    · cases h1
      have hi : i = 1 := by
        have : (some 1 : Option Nat) = some i := h2
        simpa using this.symm
      subst hi
      have e3 : lockNode v g2 1 false = some ideal := h3
      have : (lock.get? ['a']).map (fun a => (lockNode v g2 1 false).map fun b => a.eqv b) = some (some false) := by
        decide +kernel
      rw [h4, e3] at this
      simp only [Option.map_some, Option.some.injEq] at this
      rw [h5] at this; cases this
  constructor
  · rintro ⟨i, nd, hl, hi, rfl⟩
    rcases located1 hl with ⟨_, h⟩ | ⟨_, h⟩ | ⟨rfl, h⟩ | ⟨_, h⟩
    · cases h
    · simp only [List.cons.injEq] at h; exact absurd h.1 hna
    · cases hi
      refine ⟨2, _, ?_, rfl, rfl⟩
      rw [h]
      exact .inside (nd := ⟨Ex.sb, 6, [], some 0, [], []⟩) (π := []) rfl rfl (.root rfl)
    · simp only [List.cons.injEq] at h; exact absurd h.1 hna
  · rintro ⟨i, nd, hl, hi, rfl⟩
    rcases located2 hl with ⟨_, h⟩ | ⟨_, h⟩ | ⟨rfl, h⟩
    · cases h
    · simp only [List.cons.injEq] at h; exact absurd h.1 hna
    · cases hi
      refine ⟨2, _, ?_, rfl, rfl⟩
      rw [h]
      exact .inside (nd := ⟨Ex.sb, 6, [], some 0, [], []⟩) (π := []) rfl rfl (.root rfl)

/-- package 6 comes from the cache -/
theorem goods2 {fs : Tar.FS} (h : Tar.InCache ExT.env (ExT.n 6) fs) : Goods ExT.env build id pk v g2 o fetch (fun b => [b]) (some lock) fs where
  tree := installable2
  packages i nd j h0 hi hj _ := by
    have hp := six h0 hi
    have hob := start.packages 2 _ ⟨o.root ++ nmWord :: targetDir g 2, o.cache, o.mode, (fetch 6).1, (fetch 6).2⟩ (by decide) rfl rfl
    unfold jobsFor at hj
    rw [if_neg h0, hi] at hj
    cases hj
    rw [hp]
    exact obtainable_offline hob rfl (by show (fetch nd.pkg).1 = _; rw [hp]; rfl) rfl h
  packed i nd h0 hi := by rw [six h0 hi]; exact start.packed 2 _ (by decide) rfl
  built i nd h0 hi := by rw [six h0 hi]; exact start.built 2 _ (by decide) rfl
  sight := start.sight
  reading := start.reading

/-- The project is installed over what an interrupted install left, and then `a` is upgraded; the new version comes from the cache. -/
example : ∃ fs rec0, Kept ExT.env build id pk v o fetch (fun b => [b]) g fs rec0 ∧
    ∃ fs2 rec2, Kept ExT.env build id pk v o fetch (fun b => [b]) g2 fs2 rec2 ∧ Installed pk g2 (seen id o.root fs2) ∧
      Tar.InCache ExT.env (ExT.n 6) fs2 := by
  obtain ⟨hA, M, hM⟩ := C96_first ExT.ord_perm noCol half_machine clear goods s turns fair
  obtain ⟨w, hw, _⟩ := hA M
  obtain ⟨l, hl⟩ := Option.isSome_iff_exists.1 (show (toLockfile v g).isSome = true by decide +kernel)
  have hk : Kept ExT.env build id pk v o fetch (fun b => [b]) g w.runs.fs lock :=
    .first half_machine clear goods (turns M) hw (hM M (Nat.le_refl _) w hw) (by rw [← lock_eq hl]; exact recorded_self hl)
  have hin : Tar.InCache ExT.env (ExT.n 6) w.runs.fs :=
    (C97_first ExT.ord_perm noCol half_machine clear goods rfl (turns M) hw).2 _
      ⟨⟨false, [], Tar.listing ExT.env (ExT.env.untar [6]).1 []⟩, by simp [ExF.half, ExF.fs, fs, Tar.ExR.fsC], Tar.ExR.fsC_stocked⟩
  obtain ⟨hA2, M2, hM2⟩ := C96_next_partial ExT.ord_perm noCol hk noticed2 (goods2 hin) s (turns_any _) (fun i nd h0 hi N => by
    have : i < 4 := by rcases nodes2 h0 hi with ⟨h, _⟩ | ⟨h, _⟩ <;> omega
    exact ⟨4 * N + i, by omega, by unfold s; omega⟩)
  obtain ⟨w2, hw2, _⟩ := hA2 M2
  obtain ⟨l2, hl2⟩ := Option.isSome_iff_exists.1 (show (toLockfile v g2).isSome = true by decide +kernel)
  have hk2 : Kept ExT.env build id pk v o fetch (fun b => [b]) g2 w2.runs.fs l2.packages :=
    .next hk noticed2 .not (goods2 hin) (turns_any _ M2) hw2 (hM2 M2 (Nat.le_refl _) w2 hw2) (recorded_self hl2)
  exact ⟨_, _, hk, _, _, hk2, (C96_kept ExT.ord_perm noCol hk2).2.1,
    (C97_next ExT.ord_perm noCol hk noticed2 (goods2 hin) rfl (turns_any _ M2) hw2).2 _ hin⟩

end ExK
end Hoisted
end Oro
