import Verif.Proofs.TarFS
/-
Invariants of extraction: nothing outside the folder changes; every file inside the folder is a file of the archive.
-/

set_option linter.unusedSectionVars false

namespace Oro
namespace Tar

theorem sane_create {fs : FS} {p c} (h : Sane fs) : Sane (fs.create p c) := by
  refine ⟨fun q i hq => ?_, fun x i hx => ?_⟩
  · simp only [FS.create, upd] at hq ⊢
    split at hq
    · cases hq; omega
    · have := h.1 q i hq; omega
  · have := h.2 x i hx
    simp only [FS.create]; omega

theorem sane_commit {env : Env} {fs : FS} {c} (h : Sane fs) : Sane (commit env fs c) := by
  refine ⟨fun q i hq => ?_, fun x i hx => ?_⟩
  · have := h.1 q i hq
    simp only [commit]; omega
  · simp only [commit, upd] at hx ⊢
    split at hx
    · cases hx; omega
    · have := h.2 x i hx; omega

theorem sane_put {fs fs' : FS} {p i H} (h : Sane fs) (hi : i < fs.next) (hp : Put fs fs' p i H) : Sane fs' := by
  rcases hp with ⟨_, _, mo, rfl⟩ | ⟨_, mo, rfl⟩ | ⟨j, hj, mo, rfl⟩
  · refine ⟨fun q k hq => ?_, h.2⟩
    simp only [upd] at hq
    split at hq
    · cases hq; exact hi
    · exact h.1 q k hq
  · exact sane_create (c := []) h
  · exact h

theorem step_sane {env dir es a b} (h : Sane a) (s : Step env dir es a b) : Sane b := by
  cases s with
  | dirs => exact h
  | commit => exact sane_commit h
  | put _ e H he hr hp => exact sane_put (sane_commit h) (by simp [commit]) hp
  | remove e he hr =>
    refine ⟨fun q k hq => ?_, h.2⟩
    simp only [upd] at hq
    split at hq
    · cases hq
    · exact h.1 q k hq
  | redo => exact sane_create (c := []) h
  | plain => exact sane_create (c := []) h
  | modes => exact h

/-- what an extraction into `dir` that started at `o` leaves alone -/
structure Frame (dir : Loc) (o fs : FS) : Prop where
  sane : Sane fs
  next : o.next ≤ fs.next
  outside : ∀ p, ¬ Inside dir p → fs.files p = o.files p
  inside : ∀ p i, Inside dir p → fs.files p = some i → o.next ≤ i
  old : ∀ i, i < o.next → fs.content i = o.content i

theorem frame_create {dir o fs p c} (h : Frame dir o fs) (hp : Inside dir p) : Frame dir o (fs.create p c) where
  sane := sane_create h.sane
  next := by have := h.next; simp only [FS.create]; omega
  outside q hq := by
    have : q ≠ p := fun e => hq (e ▸ hp)
    simp only [FS.create, upd_ne _ _ this, h.outside q hq]
  inside q i hq hf := by
    simp only [FS.create, upd] at hf
    split at hf
    · cases hf; exact h.next
    · exact h.inside q i hq hf
  old i hi := by
    have : i ≠ fs.next := by have := h.next; omega
    simp only [FS.create, upd_ne _ _ this, h.old i hi]

theorem frame_commit {env dir o fs c} (h : Frame dir o fs) : Frame dir o (commit env fs c) where
  sane := sane_commit h.sane
  next := by have := h.next; simp only [commit]; omega
  outside := h.outside
  inside := h.inside
  old i hi := by
    have : i ≠ fs.next := by have := h.next; omega
    simp only [commit, upd_ne _ _ this, h.old i hi]

theorem frame_put {dir o fs fs' p i H} (h : Frame dir o fs) (hp : Inside dir p) (hi : o.next ≤ i) (hn : i < fs.next)
    (hx : Put fs fs' p i H) : Frame dir o fs' := by
  rcases hx with ⟨_, _, mo, rfl⟩ | ⟨_, mo, rfl⟩ | ⟨j, hj, mo, rfl⟩
  · exact {
      sane := sane_put h.sane hn (.inl ⟨trivial, by assumption, mo, rfl⟩)
      next := h.next
      outside := fun q hq => by
        have : q ≠ p := fun e => hq (e ▸ hp)
        simp only [upd_ne _ _ this, h.outside q hq]
      inside := fun q k hq hf => by
        simp only [upd] at hf
        split at hf
        · cases hf; exact hi
        · exact h.inside q k hq hf
      old := h.old }
  · have := frame_create (c := fs.content i) h hp
    exact ⟨this.sane, this.next, this.outside, this.inside, this.old⟩
  · exact {
      sane := h.sane
      next := h.next
      outside := h.outside
      inside := h.inside
      old := fun k hk => by
        have : k ≠ j := by have := h.inside p j hp hj; omega
        simp only [FS.overwrite, upd_ne _ _ this, h.old k hk] }

theorem step_frame {env dir es o a b} (hc : Contained es) (h : Frame dir o a) (s : Step env dir es a b) :
    Frame dir o b := by
  cases s with
  | dirs => exact ⟨h.sane, h.next, h.outside, h.inside, h.old⟩
  | modes => exact ⟨h.sane, h.next, h.outside, h.inside, h.old⟩
  | commit => exact frame_commit h
  | put _ e H he hr hp =>
    exact frame_put (frame_commit h) (place_inside hc he hr) h.next (by simp [commit]) hp
  | remove e he hr =>
    have hin := place_inside (dir := dir) hc he hr
    exact {
      sane := step_sane (env := env) (dir := dir) h.sane (.remove a e he hr)
      next := h.next
      outside := fun q hq => by
        have : q ≠ place dir e := fun x => hq (x ▸ hin)
        simp only [upd_ne _ _ this, h.outside q hq]
      inside := fun q k hq hf => by
        simp only [upd] at hf
        split at hf
        · cases hf
        · exact h.inside q k hq hf
      old := h.old }
  | redo e i mo he hr =>
    have := frame_create (c := a.content i) h (place_inside (dir := dir) hc he hr)
    exact ⟨this.sane, this.next, this.outside, this.inside, this.old⟩
  | plain e mo he hr =>
    have := frame_create (c := e.content) h (place_inside (dir := dir) hc he hr)
    exact ⟨this.sane, this.next, this.outside, this.inside, this.old⟩

theorem frame_init {dir fs} (h : Sane fs) (hv : Vacant fs dir) : Frame dir fs fs where
  sane := h
  next := Nat.le_refl _
  outside _ _ := rfl
  inside p i hp hf := by rw [hv p hp] at hf; cases hf
  old _ _ := rfl

/-- every file in the folder is, up to a collision of the content hash, a file of the archive -/
def AllFrom (env : Env) (dir : Loc) (es : List Entry) (fs : FS) : Prop :=
  ∀ p i, Inside dir p → fs.files p = some i →
    ∃ e ∈ es, e.regular = true ∧ place dir e = p ∧ env.xxh (fs.content i) = env.xxh e.content

theorem allFrom_create {env dir es fs e c} (hs : Sane fs) (h : AllFrom env dir es fs) (he : e ∈ es)
    (hr : e.regular = true) (hc : env.xxh c = env.xxh e.content) : AllFrom env dir es (fs.create (place dir e) c) := by
  intro p i hp hf
  simp only [FS.create, upd] at hf ⊢
  split at hf
  · rename_i hpe
    cases hf
    exact ⟨e, he, hr, hpe.symm, by simpa using hc⟩
  · have := hs.1 p i hf
    rw [if_neg (by omega)]
    exact h p i hp hf

theorem allFrom_over {env dir es fs e i j c} (hd : Distinct dir es) (h : AllFrom env dir es fs) (he : e ∈ es)
    (hr : e.regular = true) (hin : Inside dir (place dir e)) (hj : fs.files (place dir e) = some j) (hij : i ≠ j)
    (hi : fs.content i = c) (hc : env.xxh c = env.xxh e.content) : AllFrom env dir es (fs.overwrite i j) := by
  intro p k hp hf
  simp only [FS.overwrite, upd] at hf ⊢
  split
  · rename_i hk
    subst hk
    simp only [if_neg hij, hi, hc]
    obtain ⟨e1, he1, hr1, hp1, hx1⟩ := h p k hp hf
    obtain ⟨e2, he2, hr2, hp2, hx2⟩ := h _ k hin hj
    refine ⟨e1, he1, hr1, hp1, ?_⟩
    rw [← hx1, hx2, hd e he hr e2 he2 hr2 hp2.symm]
  · exact h p k hp hf

theorem step_allFrom {env dir es a b} (hc : Contained es) (hd : Distinct dir es) (hs : Sane a)
    (h : AllFrom env dir es a) (s : Step env dir es a b) : AllFrom env dir es b := by
  cases s with
  | dirs => exact h
  | modes => exact h
  | commit c =>
    intro p i hp hf
    have := hs.1 p i hf
    simp only [commit, upd]
    rw [if_neg (by omega)]
    exact h p i hp hf
  | put _ e H he hr hp =>
    have h1 : AllFrom env dir es (commit env a e.content) := by
      intro p i hp hf
      have := hs.1 p i hf
      simp only [commit, upd]
      rw [if_neg (by omega)]
      exact h p i hp hf
    have hin := place_inside (dir := dir) hc he hr
    rcases hp with ⟨_, _, mo, rfl⟩ | ⟨_, mo, rfl⟩ | ⟨j, hj, mo, rfl⟩
    · intro p i hp hf
      simp only [upd] at hf
      split at hf
      · rename_i hpe
        cases hf
        exact ⟨e, he, hr, hpe.symm, by rw [commit_content]⟩
      · exact h1 p i hp hf
    · exact allFrom_create (sane_commit hs) h1 he hr (by rw [commit_content])
    · have : j < a.next := hs.1 _ _ hj
      exact allFrom_over hd h1 he hr hin hj (by omega) (commit_content ..) rfl
  | remove e he hr =>
    intro p i hp hf
    simp only [upd] at hf
    split at hf
    · cases hf
    · exact h p i hp hf
  | redo e i mo he hr hf hs' hx => exact allFrom_create hs h he hr hx
  | plain e mo he hr hf => exact allFrom_create hs h he hr rfl

end Tar
end Oro
