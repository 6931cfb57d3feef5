import Verif.Props.Torn
import Verif.Examples.Lockfile
/- C101: an interrupted lockfile, concretely; and what it costs when the registry has moved on. -/

set_option linter.unusedSectionVars false

namespace Oro
namespace ExL

def treeT : St := final (envA 1) none root [.pop, .pull, .pull, .complete (['e'], ['^']), .complete (['n'], ['1']), .deliver, .pop, .pop]

theorem runT_ok : ok (rrun (envA 1) none (rinit root) [.pop, .pull, .pull, .complete (['e'], ['^']), .complete (['n'], ['1']), .deliver, .pop,
  .pop]) = true := by decide +kernel

theorem root_okT (k : Nat) : IsRoot (envA k) root := ⟨[], (['p'], 0), manA, by rfl⟩

def blankLock : Lockfile Nat Nat := ⟨0, ⟨[], true, [], none, none, none, [], [], [], []⟩, []⟩

/-- the lockfile of the project that wants e and n@1 -/
def lockT : Lockfile Nat Nat := (toLockfile view treeT.graph).getD blankLock

theorem lockT_eq : toLockfile view treeT.graph = some lockT := by
  obtain ⟨l, hl⟩ := toLockfile_isSome (((final_reach runT_ok).sinv (root_okT 1)).pinv.ginv.folderTree) view
  have hl' : toLockfile view treeT.graph = some l := hl
  simp [lockT, hl']

theorem lockT_proper : lockT.Proper :=
  toLockfile_proper (((final_reach runT_ok).sinv (root_okT 1)).pinv.ginv.folderTree) (((final_reach runT_ok).sinv (root_okT 1)).pinv.ginv.ord) lockT_eq

/-- read back -/
def lockT0 : Lockfile Nat Nat :=
  { version := lockT.version, root := lockT.root.norm true, packages := (sortKeys lockT.packages).map fun p => (p.1, p.2.norm false) }

theorem lockT0_eq : Lockfile.fromKdl codec (lockT.toKdl codec) = .ok lockT0 := Lockfile.fromKdl_toKdl codec lockT lockT_proper

theorem has_of {l : LockTree Str Pk} {n : Str} {x : Pk × Manifest Str}
    (h : ((l.get? [n]).map fun e => (e.pkg, e.manifest)) = some (some (some x.1), x.2)) : LockHas (some l) n x := by
  cases hg : l.get? [n] with
  | none => rw [hg] at h; cases h
  | some e =>
    rw [hg] at h
    simp only [Option.map_some, Option.some.injEq, Prod.mk.injEq] at h
    exact ⟨l, rfl, e, hg, h.1, h.2⟩

/-- the project agrees with its lockfile -/
theorem agreedT : Agreed (envA 1) (some (lockT0.tree toPackage)) manA chosen where
  fits := by
    intro n raw h
    refine ⟨(n, raw), rfl, ?_⟩
    rcases askedA h with ⟨rfl, rfl⟩ | ⟨rfl, rfl⟩ | ⟨rfl, rfl⟩
    · exact ⟨by decide +kernel, .inl (has_of (by decide +kernel))⟩
    · exact ⟨by decide +kernel, .inl (has_of (by decide +kernel))⟩
    · exact ⟨by decide +kernel, .inl (has_of (by decide +kernel))⟩
  flat := by
    intro l π ent h h2
    cases h
    have h3 : ∀ p ∈ lockT0.tree toPackage, p.1 = p.2.path ∧ (p.1 = [['e']] ∨ p.1 = [['n']]) := by decide +kernel
    obtain ⟨a, b⟩ := h3 _ (IMap.mem_of_get? h2)
    dsimp only at a b
    rcases b with b | b
    · exact .inr ⟨_, b, by rw [← a, b]⟩
    · exact .inr ⟨_, b, by rw [← a, b]⟩
  reads := fun n h => readsA (by intro n raw h; cases h) h

/-- whatever is left of its lockfile, and whatever happens first, the next install gives what the whole lockfile would have given -/
example {t : KDoc} (ht : Torn (lockT.toKdl codec) t) {s0 s1 : St} (r0 : RReach (envA 1) (some (lockT0.tree toPackage)) root s0)
    (d0 : s0.done = true) (r1 : RReach (envA 1) (lockOf toPackage (Lockfile.fromKdl codec t)) root s1) (d1 : s1.done = true) :
    (∀ π p, Installed s1.graph π p ↔ Installed s0.graph π p) ∧
    ∃ a b, toLockfile view s0.graph = some a ∧ toLockfile view s1.graph = some b ∧ b.toKdl codec = a.toKdl codec :=
  C101_same_partial (w := chosen) (nm := []) (pk := (['p'], 0)) (fun n _ h => by simp [toPackage, h]) lockT_proper ht lockT0_eq agreedT
    (by
      intro n raw spec h hp
      cases hp
      rcases askedA h with ⟨rfl, rfl⟩ | ⟨rfl, rfl⟩ | ⟨rfl, rfl⟩ <;> decide +kernel)
    rfl (by unfold Manifest.Proper; decide)
    (fun n hn => by
      rcases reachedA hn with rfl | rfl
      · exact .inl ⟨by decide, by decide⟩
      · exact .inl ⟨by decide, by decide⟩) r0 d0 r1 d1

/-- one that stops in the middle of the second package -/
def tornT : KDoc := (lockT.toKdl codec).take 3 ++ [KNode.mk kPkg [(none, .str ['n'])] none]

theorem tornT_torn : Torn (lockT.toKdl codec) tornT := by
  have h : (lockT.toKdl codec).drop 3 ≠ [] := by
    intro h
    have := congrArg List.length h
    exact absurd this (by decide +kernel)
  obtain ⟨k, rest, hk⟩ := List.exists_cons_of_ne_nil h
  have hd : lockT.toKdl codec = (lockT.toKdl codec).take 3 ++ k :: rest := by rw [← hk, List.take_append_drop]
  refine .within hd ?_
  have e : ((lockT.toKdl codec).drop 3).head?.map (fun k => (k.name, k.strings)) = some (kPkg, [['n']]) := by decide +kernel
  rw [hk] at e
  simp only [List.head?_cons, Option.map_some, Option.some.injEq, Prod.mk.injEq] at e
  exact ⟨by rw [e.1]; exact List.prefix_refl _, by rw [e.2]; exact List.prefix_refl _, rfl⟩

/-- it reads as a lockfile with e, and an entry for n that says nothing -/
example : ∃ l', Lockfile.fromKdl codec tornT = .ok l' ∧ l'.packages.map (fun p => (p.1, p.2.version)) = [(['e'], some 1), (['n'], none)] := by
  have h : ((Lockfile.fromKdl codec tornT).toOption.map fun l => l.packages.map fun p => (p.1, p.2.version)) =
      some [(['e'], some 1), (['n'], none)] := by decide +kernel
  cases hl : Lockfile.fromKdl codec tornT with
  | error e => rw [hl] at h; cases h
  | ok l' => rw [hl] at h; exact ⟨l', rfl, Option.some.inj h⟩

/-! When the registry has moved on, what the lockfile pinned is lost. -/

/-- any n will do; the newest is the given one -/
def envD (newest : Nat) : E := mkEnv [((['n'], ['^']), newest, [])]
def rootD : Nd := mkRoot [(['n'], ['^'])]
theorem root_okD (k : Nat) : IsRoot (envD k) rootD := ⟨[], (['p'], 0), { deps := [(['n'], ['^'])] }, by rfl⟩

def treeD : St := final (envD 1) none rootD [.pop, .pull, .complete (['n'], ['^']), .deliver, .pop]
theorem runD_ok : ok (rrun (envD 1) none (rinit rootD) [.pop, .pull, .complete (['n'], ['^']), .deliver, .pop]) = true := by decide +kernel

def lockD : Lockfile Nat Nat := (toLockfile view treeD.graph).getD blankLock
theorem lockD_eq : toLockfile view treeD.graph = some lockD := by
  obtain ⟨l, hl⟩ := toLockfile_isSome (((final_reach runD_ok).sinv (root_okD 1)).pinv.ginv.folderTree) view
  have hl' : toLockfile view treeD.graph = some l := hl
  simp [lockD, hl']

def treeOf (lock : Option (LockTree Str Pk)) (evs : List (REvent Sp)) : St := final (envD 2) lock rootD evs

theorem installed_one {lock : Option (LockTree Str Pk)} {s : St} (h : RReach (envD 2) lock rootD s) {p : Pk}
    (hp : ((s.graph.nodes[1]?).map (·.pkg)) = some p) (hπ : s.graph.nodePath 1 = [['n']]) : Installed s.graph [['n']] p := by
  have hg := (h.sinv (root_okD 2)).pinv.ginv
  cases hn : s.graph.nodes[1]? with
  | none => rw [hn] at hp; cases hp
  | some nd =>
    rw [hn] at hp
    simp only [Option.map_some, Option.some.injEq] at hp
    exact ⟨1, nd, (locatedAt_iff hg.folderTree hg.ord).2 ⟨⟨nd, hn⟩, hπ⟩, hn, hp⟩

/-- **C101 fails** for a project whose requirements leave a choice, when a newer version has been published since: the lockfile
of a finished install pins n@1, and an install with it gives n@1; when the writing of that same lockfile was interrupted, the
next install reads what is left as a lockfile and gives n@2. -/
theorem C101_moved_on_fails : ∃ (g : St) (l l' : Lockfile Nat Nat) (t : KDoc) (s0 s1 : St),
    RReach (envD 1) none rootD g ∧ g.done = true ∧ toLockfile view g.graph = some l ∧ Torn (l.toKdl codec) t ∧
    Lockfile.fromKdl codec t = .ok l' ∧
    (∀ l0, Lockfile.fromKdl codec (l.toKdl codec) = .ok l0 → RReach (envD 2) (some (l0.tree toPackage)) rootD s0) ∧ s0.done = true ∧
    Installed s0.graph [['n']] (['n'], 1) ∧
    RReach (envD 2) (some (l'.tree toPackage)) rootD s1 ∧ s1.done = true ∧ Installed s1.graph [['n']] (['n'], 2) := by
  have hprop : lockD.Proper := toLockfile_proper (((final_reach runD_ok).sinv (root_okD 1)).pinv.ginv.folderTree)
    (((final_reach runD_ok).sinv (root_okD 1)).pinv.ginv.ord) lockD_eq
  have hfull := Lockfile.fromKdl_toKdl codec lockD hprop
  generalize hL : ({ version := lockD.version, root := lockD.root.norm true, packages := (sortKeys lockD.packages).map fun p => (p.1, p.2.norm false) } : Lockfile Nat Nat) = L at hfull
  have hr0 : ok (rrun (envD 2) (some (L.tree toPackage)) (rinit rootD) [.pop, .pop]) = true := by rw [← hL]; decide +kernel
  have hr1 : ok (rrun (envD 2) (some []) (rinit rootD) [.pop, .pull, .complete (['n'], ['^']), .deliver, .pop]) = true := by decide +kernel
  have ht : ((Lockfile.fromKdl codec ((lockD.toKdl codec).take 2)).toOption.map fun l => l.packages.isEmpty) = some true := by decide +kernel
  cases h1 : Lockfile.fromKdl codec ((lockD.toKdl codec).take 2) with
  | error e => rw [h1] at ht; cases ht
  | ok l' =>
    rw [h1] at ht
    have hempty : l'.tree toPackage = [] := by
      have : l'.packages = [] := by simpa [Except.toOption] using ht
      unfold Lockfile.tree; rw [this]; rfl
    have rr0 := final_reach hr0
    refine ⟨treeD, lockD, l', _, final (envD 2) (some (L.tree toPackage)) rootD [.pop, .pop],
      final (envD 2) (some []) rootD [.pop, .pull, .complete (['n'], ['^']), .deliver, .pop],
      final_reach runD_ok, by decide +kernel, lockD_eq, .after 2, h1, ?_, by rw [← hL]; decide +kernel, ?_, ?_, by decide +kernel, ?_⟩
    · intro l0 hl0
      rw [hfull] at hl0; cases hl0
      exact rr0
    · exact installed_one rr0 (by rw [← hL]; decide +kernel) (by rw [← hL]; decide +kernel)
    · rw [hempty]; exact final_reach hr1
    · exact installed_one (final_reach hr1) (by decide +kernel) (by decide +kernel)

end ExL
end Oro
