import Verif.Props.LinkBins
/-
C35: linking commands ends (hoisted linker).
-/

set_option linter.unusedSectionVars false

namespace Oro
namespace Hoisted
variable {P S V I : Type} [DecidableEq S] [DecidableEq V] [DecidableEq I]

/-- The most steps that linking the commands of these packages can take: two for each package, and for each of its commands nine and one for
each part of the path of the folder it is linked in. -/
def linkSteps (pk : Pkgs P) (g : Graph Str P S) (order : List Nat) : Nat :=
  (order.map fun i => 2 + match g.nodes[i]? with
    | some nd => (pk.bins nd.pkg).length * (9 + (binDir (targetDir g i)).length)
    | none => 0).sum

section
variable {pk : Pkgs P} {cap : Nat} {g : Graph Str P S}

/-- steps that are left for a command -/
def phaseLeft (n : Nat) : LPhase → Nat
  | .start => 9 + n
  | .check => 8 + n
  | .parent => 7 + n
  | .createAll => 6 + n
  | .create => 6
  | .insert l => 4 + l.length
  | .look => 3
  | .remove => 2
  | .link => 1

/-- steps that are left for a package -/
def taskLeft (g : Graph Str P S) (k : LTask) : Nat :=
  1 + match k.todo with
    | [] => 0
    | _ :: rest => phaseLeft (binDir (targetDir g k.pkg)).length k.phase + rest.length * (9 + (binDir (targetDir g k.pkg)).length)

def left (pk : Pkgs P) (g : Graph Str P S) (x : LRun) : Nat := linkSteps pk g x.queue + (x.tasks.map (taskLeft g)).sum

theorem lcmd_left {target : Loc} {b : Str × Loc} {t : Tree} {cache : List Loc} {ph : LPhase} {r : Tree × List Loc × Option LPhase}
    (h : lcmd target b t cache ph = some r) :
    (match r.2.2 with | some ph' => phaseLeft (binDir target).length ph' | none => 0) < phaseLeft (binDir target).length ph := by
  cases ph with
  | start => cases h; dsimp only; split <;> rename_i e <;> split at e <;> cases e <;> simp [phaseLeft] <;> omega
  | check => cases h; dsimp only; split <;> rename_i e <;> split at e <;> cases e <;> simp [phaseLeft] <;> omega
  | parent => cases h; dsimp only; split <;> rename_i e <;> split at e <;> cases e <;> simp [phaseLeft] <;> omega
  | create =>
    simp only [lcmd] at h
    split at h
    · cases h; simp [phaseLeft]
    · cases h
  | createAll =>
    simp only [lcmd] at h
    obtain ⟨t', _, rfl⟩ := Option.map_eq_some_iff.1 h
    simp [phaseLeft]; omega
  | insert l =>
    cases l with
    | nil => cases h; simp [phaseLeft]
    | cons q l => cases h; simp [phaseLeft]
  | look => cases h; dsimp only; split <;> rename_i e <;> split at e <;> cases e <;> simp [phaseLeft]
  | remove =>
    simp only [lcmd] at h
    split at h
    · cases h
    · cases h; simp [phaseLeft]
  | link =>
    simp only [lcmd] at h
    split at h
    · cases h; simp [phaseLeft]
    · cases h

theorem sum_set_lt {l : List Nat} {k a b : Nat} (hk : l[k]? = some a) (h : b < a) : (l.set k b).sum < l.sum := by
  induction l generalizing k with
  | nil => cases hk
  | cons c l ih =>
    cases k with
    | zero => cases hk; simp; omega
    | succ k => have := ih (k := k) (by simpa using hk); simp; omega

theorem sum_erase_lt {α : Type} (f : α → Nat) {l : List α} {k : Nat} {a : α} (hk : l[k]? = some a) (h : 0 < f a) : ((l.eraseIdx k).map f).sum < (l.map f).sum := by
  induction l generalizing k with
  | nil => cases hk
  | cons c l ih =>
    cases k with
    | zero => cases hk; simp; omega
    | succ k => have := ih (k := k) (by simpa using hk); simp; omega

theorem lstep_left {x y : LRun} {ev : XEvent} (h : lstep pk cap g x ev = some (some y)) : left pk g y < left pk g x := by
  cases ev with
  | start =>
    simp only [lstep] at h
    split at h
    · split at h
      · cases h
      · rename_i i rest hq
        split at h
        · cases h; simp [left, linkSteps, hq]; omega
        · split at h
          · cases h; simp [left, linkSteps, hq]; omega
          · rename_i nd hi
            cases h
            simp only [left, linkSteps, hq, List.map_cons, List.sum_cons, List.map_append, List.sum_append, List.map_nil, List.sum_nil, hi, taskLeft]
            cases pk.bins nd.pkg with
            | nil => simp; omega
            | cons b l =>
              have e := Nat.add_one_mul l.length (9 + (binDir (targetDir g i)).length)
              simp only [phaseLeft, List.length_cons]
              rw [e]
              generalize l.length * (9 + (binDir (targetDir g i)).length) = m
              generalize (binDir (targetDir g i)).length = k
              omega
    · cases h
  | work k =>
    simp only [lstep] at h
    split at h
    · cases h
    · rename_i i ph hk
      cases h
      have := sum_erase_lt (taskLeft g) hk (by simp [taskLeft])
      simp only [left]
      omega
    · rename_i i b rest ph hk
      simp only [Option.some.injEq] at h
      obtain ⟨r, hr, rfl⟩ := Option.map_eq_some_iff.1 h
      have hl := lcmd_left hr
      have hk' : (x.tasks.map (taskLeft g))[k]? = some (taskLeft g ⟨i, b :: rest, ph⟩) := by rw [List.getElem?_map, hk]; rfl
      simp only [left]
      have hlt : taskLeft g (match r.2.2 with | some ph' => ⟨i, b :: rest, ph'⟩ | none => ⟨i, rest, .start⟩) < taskLeft g ⟨i, b :: rest, ph⟩ := by
        cases hz : r.2.2 with
        | some ph' =>
          rw [hz] at hl
          simp only [taskLeft]
          dsimp only at hl
          omega
        | none =>
          rw [hz] at hl
          dsimp only at hl
          cases rest with
          | nil => simp only [taskLeft]; omega
          | cons c rest =>
            simp only [taskLeft, show ∀ n, phaseLeft n .start = 9 + n from fun _ => rfl, List.length_cons]
            generalize (binDir (targetDir g i)).length = k at hl ⊢
            have e := Nat.add_one_mul rest.length (9 + k)
            rw [e]
            generalize rest.length * (9 + k) = m
            omega
      have := sum_set_lt hk' hlt
      rw [List.map_set]
      exact Nat.add_lt_add_left this _

theorem lrun_left : ∀ (evs : List XEvent) {x y : LRun}, lrun pk cap g x evs = some (some y) → evs.length + left pk g y ≤ left pk g x
  | [], _, _, h => by cases h; simp
  | ev :: evs, x, y, h => by
    simp only [lrun] at h
    split at h
    · cases h
    · cases h
    · rename_i z hz
      have := lrun_left evs h
      have := lstep_left hz
      simp only [List.length_cons]
      omega

theorem lrun_goes_on : ∀ (n : Nat) (x : LRun), left pk g x ≤ n → ∃ evs, lrun pk cap g x evs = some none ∨ ∃ y, lrun pk cap g x evs = some (some y) ∧ y.done = true
  | 0, x, h => by
    cases hd : x.done with
    | true => exact ⟨[], .inr ⟨x, rfl, hd⟩⟩
    | false =>
      obtain ⟨ev, o, ho⟩ := lprogress (pk := pk) (g := g) (cap := cap) hd
      cases o with
      | none => exact ⟨[ev], .inl (by simp [lrun, ho])⟩
      | some y => have := lstep_left ho; omega
  | n + 1, x, h => by
    cases hd : x.done with
    | true => exact ⟨[], .inr ⟨x, rfl, hd⟩⟩
    | false =>
      obtain ⟨ev, o, ho⟩ := lprogress (pk := pk) (g := g) (cap := cap) hd
      cases o with
      | none => exact ⟨[ev], .inl (by simp [lrun, ho])⟩
      | some y =>
        obtain ⟨evs, he⟩ := lrun_goes_on n y (by have := lstep_left ho; omega)
        exact ⟨ev :: evs, by simpa [lrun, ho] using he⟩

end

section
variable (pk : Pkgs P) (v : LockView P S V I) (cap : Nat) (g : Graph Str P S)

/-- C35: linking the commands ends, whatever is on the disk, however many packages are linked at a time and in whatever order their steps
are taken; and as long as it is not over something can happen, so it always comes to its end or fails. -/
theorem C35_ends (order : List Nat) (t : Tree) : (∀ evs x, lrun pk cap g (linit order t) evs = some (some x) → evs.length ≤ linkSteps pk g order) ∧
    ∀ x, LReach pk cap g order t x → ∃ evs, lrun pk cap g x evs = some none ∨ ∃ y, lrun pk cap g x evs = some (some y) ∧ y.done = true := by
  refine ⟨fun evs x h => ?_, fun x _ => lrun_goes_on _ x (Nat.le_refl _)⟩
  have := lrun_left evs h
  simp only [left, linit] at this
  simp at this
  omega

/-- C35 after a first install, with one package at a time: wherever linking is, it comes to its end without a failure. -/
theorem C35_alone_ends (hg : Installable pk g) (d : Disk V I) (hd : Fresh d) (r : Disk V I × Ext) (hr : install pk v g d = some r)
    (order : List Nat) (x : LRun) (h : LReach pk 1 g order r.1.tree x) : ∃ evs y, lrun pk 1 g x evs = some (some y) ∧ y.done = true := by
  obtain ⟨evs, he | ⟨y, hy⟩⟩ := (C35_ends pk 1 g order r.1.tree).2 x h
  · obtain ⟨y, ev, h1, h2⟩ := lreach_fails evs h he
    exact absurd h2 ((C35_alone pk v g hg d hd r hr order y h1).1 ev)
  · exact ⟨evs, y, hy⟩

end

/-- C35_ends, C35_alone_ends: two packages, each with a command -/
example : ∃ r evs y, install Ex.pk2 Ex.v (Ex.pair 1 2) Ex.none_ = some r ∧ lrun Ex.pk2 1 (Ex.pair 1 2) (linit [1, 2] r.1.tree) evs = some (some y) ∧
    y.done = true ∧ linkSteps Ex.pk2 (Ex.pair 1 2) [1, 2] = 24 ∧ 14 ≤ evs.length := by
  have h : (install Ex.pk2 Ex.v (Ex.pair 1 2) Ex.none_).map (fun r => (lrun Ex.pk2 1 (Ex.pair 1 2) (linit [1, 2] r.1.tree) Ex.inTurn).map fun o => o.map fun y => y.done) =
      some (some (some true)) := by decide +kernel
  obtain ⟨r, h1, h2⟩ := Option.map_eq_some_iff.1 h
  obtain ⟨o, h3, h4⟩ := Option.map_eq_some_iff.1 h2
  obtain ⟨y, h5, h6⟩ := Option.map_eq_some_iff.1 h4
  subst h5
  exact ⟨r, _, y, h1, h3, h6, by decide +kernel, by decide +kernel⟩

end Hoisted
end Oro
