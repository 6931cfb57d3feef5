import Verif.Spec.Private
import Verif.Proofs.TarRun
/-
Which files are nobody else's.
-/

set_option linter.unusedSectionVars false
set_option linter.unusedTactic false

namespace Oro
namespace Tar

/-- the file at `p` has no other name and is not one of the cache's -/
def Alone (fs : FS) (p : Loc) : Prop :=
  ∀ i, fs.files p = some i → (∀ h, fs.store h ≠ some i) ∧ ∀ q, fs.files q = some i → q = p

theorem Alone.private {fs : FS} {p : Loc} (h : Alone fs p) : Private fs p := by
  intro c
  unfold FS.edit
  cases hp : fs.files p with
  | none => exact ⟨fun _ _ => rfl, fun _ => rfl⟩
  | some i =>
    obtain ⟨h1, h2⟩ := h i hp
    refine ⟨fun q hq => ?_, fun x => ?_⟩
    · unfold FS.read
      cases hx : fs.files q with
      | none => rfl
      | some k =>
        have : k ≠ i := fun he => hq (h2 q (he ▸ hx))
        simp [upd_ne _ _ this]
    · unfold FS.cached
      cases hx : fs.store x with
      | none => rfl
      | some k =>
        have : k ≠ i := fun he => h1 x (he ▸ hx)
        simp [upd_ne _ _ this]

/-- where the files after a step come from -/
structure Traces (a b : FS) : Prop where
  sane : Sane b
  files : ∀ q i, b.files q = some i → a.files q = some i ∨ a.next ≤ i ∨ ∃ h, a.store h = some i
  store : ∀ h i, b.store h = some i → a.store h = some i ∨ a.next ≤ i
  one : ∀ q q' i, b.files q = some i → b.files q' = some i → a.next ≤ i → q = q'
  off : ∀ q h i, b.files q = some i → a.next ≤ i → b.store h ≠ some i

/-- no hard links were made -/
def Copies (a b : FS) : Prop := ∀ q i, b.files q = some i → a.files q = some i ∨ a.next ≤ i

theorem alone_keep {a b : FS} {p : Loc} (hs : Sane a) (ht : Traces a b) (hf : b.files p = a.files p) (h : Alone a p) : Alone b p := by
  intro i hi
  rw [hf] at hi
  obtain ⟨h1, h2⟩ := h i hi
  have hlt := hs.1 _ _ hi
  refine ⟨fun x hx => ?_, fun q hq => ?_⟩
  · rcases ht.store x i hx with h | h
    · exact h1 x h
    · omega
  · rcases ht.files q i hq with h | h | ⟨x, h⟩
    · exact h2 q h
    · omega
    · exact absurd h (h1 x)

theorem alone_new {a b : FS} {p : Loc} {i : Nat} (ht : Traces a b) (hp : b.files p = some i) (hi : a.next ≤ i) : Alone b p := by
  intro k hk
  rw [hp] at hk; cases hk
  exact ⟨fun h => ht.off p h i hp hi, fun q hq => ht.one q p i hq hp hi⟩

theorem traces_same {a b : FS} (hs : Sane a) (hn : b.next = a.next) (hf : b.files = a.files) (hst : b.store = a.store) : Traces a b where
  sane := ⟨fun p i h => by rw [hn]; exact hs.1 p i (hf ▸ h), fun p i h => by rw [hn]; exact hs.2 p i (hst ▸ h)⟩
  files q i h := .inl (hf ▸ h)
  store h i hx := .inl (hst ▸ hx)
  one q q' i h _ hi := by have := hs.1 q i (hf ▸ h); omega
  off q h i hx hi := by have := hs.1 q i (hf ▸ hx); omega

theorem traces_refl {a : FS} (hs : Sane a) : Traces a a := traces_same hs rfl rfl rfl

theorem copies_same {a b : FS} (hf : b.files = a.files) : Copies a b := fun q i h => .inl (hf ▸ h)

theorem traces_mkdirp {a b : FS} {c p c'} (hs : Sane a) (h : mkdirp c a p = some (c', b)) : Traces a b ∧ b.files = a.files := by
  obtain ⟨d, rfl⟩ := mkdirp_eq h
  exact ⟨traces_same hs rfl rfl rfl, rfl⟩

theorem traces_commit {env : Env} {a : FS} {c} (hs : Sane a) : Traces a (commit env a c) where
  sane := sane_commit hs
  files q i h := .inl h
  store h i hx := by
    simp only [commit, upd] at hx
    split at hx
    · cases hx; exact .inr (Nat.le_refl _)
    · exact .inl hx
  one q q' i h _ hi := by have := hs.1 q i h; omega
  off q h i hx hi := by have := hs.1 q i hx; omega

theorem traces_evict {a b : FS} {i} (hs : Sane a) (h : evict i a = some b) : Traces a b ∧ b.files = a.files := by
  have hsb := evict_sane hs h
  obtain ⟨hf, _⟩ := evict_files h
  have hst : ∀ x k, b.store x = some k → a.store x = some k := by
    unfold evict at h
    split at h
    · cases h; exact fun _ _ h => h
    · rename_i e _
      cases e with
      | broken => cases h
      | good idx' =>
        simp only [clean, Option.some.injEq] at h; subst h
        intro x k hx
        simp only at hx
        split at hx
        · cases hx
        · exact hx
  exact ⟨⟨hsb, fun q i h => .inl (hf ▸ h), fun h i hx => .inl (hst h i hx),
    fun q q' i h _ hi => by have := hs.1 q i (hf ▸ h); omega, fun q h i hx hi => by have := hs.1 q i (hf ▸ hx); omega⟩, hf⟩

theorem traces_create {a : FS} {p : Loc} {c : Bytes} {mo} (hs : Sane a) : Traces a { a.create p c with mode := mo } where
  sane := sane_create (c := []) hs
  files q i h := by
    simp only [FS.create, upd] at h
    split at h
    · cases h; exact .inr (.inl (Nat.le_refl _))
    · exact .inl h
  store h i hx := .inl hx
  one q q' i h h' hi := by
    simp only [FS.create, upd] at h h'
    split at h
    · split at h'
      · simp [*]
      · have := hs.1 q' i h'; omega
    · have := hs.1 q i h; omega
  off q h i _ hi hx := by
    have := hs.2 h i hx
    omega

theorem copies_create {a : FS} {p : Loc} {c : Bytes} {mo} : Copies a { a.create p c with mode := mo } := by
  intro q i h
  simp only [FS.create, upd] at h
  split at h
  · cases h; exact .inr (Nat.le_refl _)
  · exact .inl h

theorem traces_remove {a b : FS} {p : Loc} (hs : Sane a) (h : a.remove p = some b) : Traces a b ∧ Copies a b := by
  rw [remove_eq h]
  have hf : ∀ q i, upd a.files p none q = some i → a.files q = some i := by
    intro q i hx
    simp only [upd] at hx
    split at hx
    · cases hx
    · exact hx
  exact ⟨⟨⟨fun q i h => hs.1 q i (hf q i h), hs.2⟩, fun q i h => .inl (hf q i h), fun h i hx => .inl hx,
    fun q q' i h _ hi => by have := hs.1 q i (hf q i h); omega, fun q h i hx hi => by have := hs.1 q i (hf q i hx); omega⟩,
    fun q i h => .inl (hf q i h)⟩

theorem traces_extractFile {env : Env} {m : Mode} {a b : FS} {h p} (hs : Sane a) (hx : extractFile env m a h p = some b) :
    Traces a b ∧ (∀ q, q ≠ p → b.files q = a.files q) ∧ (m.isCopy = true → Copies a b) ∧
    (m.isCopy = true → Alone a p → Alone b p) ∧ (Alone a p → Alone b p ∨ m.isCopy = false) := by
  obtain ⟨i, hst, _, hp⟩ := extractFile_put hx
  have hi := hs.2 _ _ hst
  have hsb := sane_put hs hi hp
  have key : Traces a b ∧ (∀ q, q ≠ p → b.files q = a.files q) ∧ (m.isCopy = true → Copies a b) := by
    rcases hp with ⟨hh, hv, mo, rfl⟩ | ⟨_, mo, rfl⟩ | ⟨j, hj, mo, rfl⟩
    · have hf : ∀ q k, upd a.files p (some i) q = some k → a.files q = some k ∨ k = i := by
        intro q k hq
        simp only [upd] at hq
        split at hq
        · cases hq; exact .inr rfl
        · exact .inl hq
      have hlt : ∀ q k, upd a.files p (some i) q = some k → k < a.next := by
        intro q k hq
        rcases hf q k hq with h | rfl
        · exact hs.1 q k h
        · exact hi
      refine ⟨⟨hsb, fun q k hq => ?_, fun h i hx => .inl hx, fun q q' k h _ hk => by have := hlt q k h; omega,
        fun q h k hx hk => by have := hlt q k hx; omega⟩, fun q hq => upd_ne _ _ hq, fun hm => by rw [hm] at hh; cases hh⟩
      rcases hf q k hq with h | rfl
      · exact .inl h
      · exact .inr (.inr ⟨_, hst⟩)
    · exact ⟨traces_create hs, fun q hq => by simp only [FS.create, upd_ne _ _ hq], fun _ => copies_create⟩
    · exact ⟨traces_same hs rfl rfl rfl, fun _ _ => rfl, fun _ => copies_same rfl⟩
  have copy : m.isCopy = true → Alone a p → Alone b p := by
    intro hm ha k hk
    rcases key.2.2 hm p k hk with h | h
    · cases hap : a.files p with
      | none => rw [hap] at h; cases h
      | some x =>
        rw [hap] at h; cases h
        refine alone_keep hs key.1 ?_ ha k hk
        rw [hk, hap]
    · exact alone_new key.1 hk h k hk
  refine ⟨key.1, key.2.1, key.2.2, copy, fun ha => ?_⟩
  cases hm : m.isCopy with
  | false => exact .inr rfl
  | true => exact .inl (copy hm ha)

/-! ### Extractions that never make hard links -/

/-- the extraction will not make hard links -/
def PC.soft (j : Job) : PC → Prop
  | .start => j.cache = true → j.mode.isCopy = true
  | .linkDir m _ _ | .link m _ _ _ _ => m.isCopy = true ∧ j.mode.isCopy = true
  | .evict => j.mode.isCopy = true
  | .fetch c | .folder c _ => c = true → j.mode.isCopy = true
  | .entry c _ _ s => c = true → s.mode.isCopy = true
  | .commit _ _ _ s | .write _ _ _ s | .manifest _ _ _ s => s.mode.isCopy = true
  | _ => True

theorem cacheMode_copy {idx : Index} {m : Mode} (h : m.isCopy = true ∨ idx.shouldCopy = true) : (cacheMode idx m).isCopy = true := by
  unfold cacheMode
  rcases h with h | h <;> rw [h]
  · simp [h]
  · cases m <;> rfl

theorem step_traces {env : Env} {j : Job} {pc : PC} {fs : FS} (hs : Sane fs) : Traces fs (j.step env pc fs).2 := by
  have ref := traces_refl hs
  cases pc with
  | linkDir m todo created =>
    simp only [Job.step]
    repeat' split
    all_goals first | exact ref | (rename_i h; exact (traces_mkdirp hs h).1)
  | link m k h r created =>
    simp only [Job.step]
    split
    · exact ref
    · rename_i h; exact (traces_extractFile hs h).1
  | evict =>
    simp only [Job.step]
    repeat' split
    all_goals first | exact ref | (rename_i h; exact (traces_evict hs h).1)
  | folder c b =>
    simp only [Job.step]
    split
    · exact ref
    · rename_i h; exact (traces_mkdirp hs h).1
  | entry c b todo s =>
    simp only [Job.step]
    repeat' split
    all_goals first | exact ref | (rename_i h; exact (traces_mkdirp hs h).1) | (rename_i h _; exact (traces_mkdirp hs h).1)
  | plain b e r s =>
    simp only [Job.step]
    split
    · exact ref
    · exact traces_create hs
  | commit b e r s => exact traces_commit hs
  | write b e r s =>
    simp only [Job.step]
    split
    · exact ref
    · rename_i h; exact (traces_extractFile hs h).1
  | redo b e r s m l =>
    simp only [Job.step]
    repeat' split
    all_goals first | exact ref | (rename_i h; exact (traces_remove hs h).1)
  | redone b e r s m k h l =>
    simp only [Job.step]
    split
    · exact ref
    · rename_i h; exact (traces_extractFile hs h).1
  | bins c b l s =>
    simp only [Job.step]
    repeat' split
    all_goals first
      | exact ref
      | (rename_i h; obtain ⟨mo, rfl⟩ := setBinMode_eq h; exact traces_same hs rfl rfl rfl)
  | record c b s =>
    simp only [Job.step, recordIndex]
    split
    · exact traces_same hs rfl rfl rfl
    · exact ref
  | _ =>
    simp only [Job.step]
    repeat' split
    all_goals exact ref

theorem step_soft {env : Env} {j : Job} {pc : PC} {fs : FS} (hs : Sane fs) (h : pc.soft j) :
    Copies fs (j.step env pc fs).2 ∧ (j.step env pc fs).1.soft j := by
  have ref : Copies fs fs := copies_same rfl
  cases pc with
  | start =>
    simp only [Job.step]
    cases j.expected with
    | none => exact ⟨ref, h⟩
    | some i =>
      cases hc : j.cache with
      | false => exact ⟨ref, fun hx => by cases hx⟩
      | true =>
        have hm := h hc
        simp only
        split
        · exact ⟨ref, fun _ => hm⟩
        · exact ⟨ref, hm⟩
        · exact ⟨ref, cacheMode_copy (.inl hm), hm⟩
  | linkDir m todo created =>
    simp only [Job.step]
    split
    · split
      · exact ⟨ref, trivial⟩
      · exact ⟨ref, trivial⟩
    · split
      · exact ⟨ref, h.2⟩
      · rename_i hm; exact ⟨copies_same (traces_mkdirp hs hm).2, h⟩
  | link m k x r created =>
    simp only [Job.step]
    split
    · exact ⟨ref, h.2⟩
    · rename_i hx; exact ⟨(traces_extractFile hs hx).2.2.1 h.1, h⟩
  | evict =>
    simp only [Job.step]
    split
    · exact ⟨ref, trivial⟩
    · split
      · exact ⟨ref, trivial⟩
      · rename_i hx; exact ⟨copies_same (traces_evict hs hx).2, fun _ => h⟩
  | fetch c =>
    simp only [Job.step]
    repeat' split
    all_goals first | exact ⟨ref, trivial⟩ | exact ⟨ref, h⟩
  | folder c b =>
    simp only [Job.step]
    split
    · exact ⟨ref, trivial⟩
    · rename_i hx; exact ⟨copies_same (traces_mkdirp hs hx).2, h⟩
  | entry c b todo s =>
    simp only [Job.step]
    split
    · split <;> exact ⟨ref, trivial⟩
    · split
      · split
        · exact ⟨ref, trivial⟩
        · rename_i hx
          refine ⟨copies_same (traces_mkdirp hs hx).2, ?_⟩
          split
          · exact h ‹_›
          · trivial
      · exact ⟨ref, h⟩
  | plain b e r s =>
    simp only [Job.step]
    split
    · exact ⟨ref, trivial⟩
    · exact ⟨copies_create, fun hx => by cases hx⟩
  | commit b e r s => exact ⟨copies_same rfl, h⟩
  | write b e r s =>
    simp only [Job.step]
    split
    · exact ⟨ref, trivial⟩
    · rename_i hx
      refine ⟨(traces_extractFile hs hx).2.2.1 h, ?_⟩
      split
      · exact h
      · exact fun _ => h
  | manifest b e r s =>
    simp only [Job.step]
    split
    · exact ⟨ref, trivial⟩
    · split
      · split
        · exact ⟨ref, fun _ => h⟩
        · exact ⟨ref, trivial⟩
      · exact ⟨ref, fun _ => h⟩
  | redo b e r s m l =>
    simp only [Job.step]
    split
    · exact ⟨ref, fun _ => rfl⟩
    · split
      · exact ⟨ref, trivial⟩
      · rename_i hx; exact ⟨(traces_remove hs hx).2, trivial⟩
  | redone b e r s m k x l =>
    simp only [Job.step]
    split
    · exact ⟨ref, trivial⟩
    · rename_i hx; exact ⟨(traces_extractFile hs hx).2.2.1 rfl, trivial⟩
  | bins c b l s =>
    simp only [Job.step]
    split
    · exact ⟨ref, trivial⟩
    · split
      · exact ⟨ref, trivial⟩
      · rename_i hx; obtain ⟨mo, rfl⟩ := setBinMode_eq hx; exact ⟨copies_same rfl, trivial⟩
  | record c b s =>
    simp only [Job.step, recordIndex]
    split
    · exact ⟨copies_same rfl, trivial⟩
    · exact ⟨ref, trivial⟩
  | done i => exact ⟨ref, trivial⟩
  | failed => exact ⟨ref, trivial⟩

/-- extractions of which none makes hard links -/
structure SoftInv (jobs : Nat → Option Job) (o : FS) (w : Runs) : Prop where
  sane : Sane w.fs
  soft : ∀ n j, jobs n = some j → (w.pcs n).soft j
  files : ∀ p i, w.fs.files p = some i → o.files p = some i ∨ Alone w.fs p

theorem softinv_init {jobs : Nat → Option Job} {o : FS} (hs : Sane o) (hm : ∀ n j, jobs n = some j → j.cache = true → j.mode.isCopy = true) :
    SoftInv jobs o (.init o) := ⟨hs, hm, fun _ _ h => .inl h⟩

theorem alone_copies {a b : FS} (hs : Sane a) (ht : Traces a b) (hc : Copies a b) {o : FS}
    (h : ∀ p i, a.files p = some i → o.files p = some i ∨ Alone a p) : ∀ p i, b.files p = some i → o.files p = some i ∨ Alone b p := by
  intro p i hi
  rcases hc p i hi with h1 | h1
  · rcases h p i h1 with h2 | h2
    · exact .inl h2
    · exact .inr (alone_keep hs ht (by rw [hi, h1]) h2)
  · exact .inr (alone_new ht hi h1)

theorem softinv_step {env : Env} {jobs : Nat → Option Job} {o : FS} {w : Runs} (h : SoftInv jobs o w) (n : Nat) :
    SoftInv jobs o (w.step env jobs n) := by
  unfold Runs.step
  cases hj : jobs n with
  | none => exact h
  | some j =>
    have ht := step_traces (env := env) (j := j) (pc := w.pcs n) h.sane
    obtain ⟨hc, hsoft⟩ := step_soft (env := env) h.sane (h.soft n j hj)
    refine ⟨ht.sane, fun m j' hj' => ?_, alone_copies h.sane ht hc h.files⟩
    show (upd w.pcs n _ m).soft j'
    by_cases he : m = n
    · subst he
      rw [hj] at hj'; cases hj'
      rw [upd_self]; exact hsoft
    · rw [upd_ne _ _ he]; exact h.soft m j' hj'

theorem softinv_run {env : Env} {jobs : Nat → Option Job} {o : FS} (sched : List Nat) (w : Runs) (h : SoftInv jobs o w) :
    SoftInv jobs o (w.run env jobs sched) := by
  induction sched generalizing w with
  | nil => exact h
  | cons n r ih => exact ih _ (softinv_step h n)

/-! ### Packages with install scripts -/

theorem mem_insert {K V : Type} [DecidableEq K] {m : IMap K V} {k x : K} {v : V} : x ∈ (m.insert k v).keys ↔ x = k ∨ x ∈ m.keys := by
  rw [IMap.keys_insert]
  split
  · constructor
    · exact .inr
    · rintro (rfl | h)
      · assumption
      · exact h
  · simp [or_comm]

/-- the files (by their paths in the archive) that may be the cache's at this point -/
def PC.loose : PC → List Comp → Prop
  | .entry true _ _ s | .commit _ _ _ s | .write _ _ _ s | .manifest _ _ _ s | .bins true _ _ s | .record true _ s => fun k =>
    k = [.normal kPackageJson] ∨ (s.mode.isCopy = false ∧ k ∈ s.idx.files.keys)
  | .redo _ _ _ _ _ l | .redone _ _ _ _ _ _ _ l => fun k => k = [.normal kPackageJson] ∨ k ∈ l.map Prod.fst
  | .done _ => fun k => k = [.normal kPackageJson]
  | .failed => fun _ => True
  | _ => fun _ => False

/-- once the manifest has been seen, no more hard links -/
def PC.turned : PC → Prop
  | .linkDir m _ _ | .link m _ _ _ _ => m.isCopy = true
  | .entry true _ _ s | .commit _ _ _ s | .write _ _ _ s | .manifest _ _ _ s | .bins true _ _ s | .record true _ s =>
    s.idx.shouldCopy = true → s.mode.isCopy = true
  | _ => True

/-- where an extraction of a package with install scripts stands -/
def Guarded (j : Job) (es : List Entry) (pc : PC) (fs : FS) : Prop :=
  pc.turned ∧ ∀ e ∈ es, e.regular = true → ¬ pc.loose (subpath e) → Alone fs (place j.dir e)

theorem guarded_other {j : Job} {es : List Entry} {pc : PC} {a b : FS} (hs : Sane a) (ht : Traces a b)
    (hf : ∀ e ∈ es, e.regular = true → b.files (place j.dir e) = a.files (place j.dir e)) (h : Guarded j es pc a) : Guarded j es pc b :=
  ⟨h.1, fun e he hr hl => alone_keep hs ht (hf e he hr) (h.2 e he hr hl)⟩

theorem place_subpath {dir : Loc} {es : List Entry} (hpl : Plain es) {e e' : Entry} (he : e ∈ es) (he' : e' ∈ es) (hr : e.regular = true)
    (hr' : e'.regular = true) (h : place dir e = place dir e') : subpath e = subpath e' :=
  goTo_inj (hpl e he hr) (hpl e' he' hr') h

theorem guarded_step {env : Env} {j : Job} {t : Bytes} {pc : PC} {fs : FS} (ho : ∀ f, (env.ord f).Perm f)
    (hfit : ∀ b, j.Fits env b → b = t) (hpl : Plain (env.untar t).1) (hsc : HasScripts env (env.untar t).1)
    (hs : Sane fs) (hh : HonestF True env fs) (hi : PCInv True env j t pc fs) (hg : Guarded j (env.untar t).1 pc fs) :
    Guarded j (env.untar t).1 (j.step env pc fs).1 (j.step env pc fs).2 := by
  -- nothing happens to files
  have still : ∀ {pc' : PC} {b : FS}, Traces fs b → b.files = fs.files → pc'.turned → (∀ k, pc.loose k → pc'.loose k) →
      Guarded j (env.untar t).1 pc' b := by
    intro pc' b ht hf h1 h2
    exact ⟨h1, fun e he hr hl => alone_keep hs ht (by rw [hf]) (hg.2 e he hr (fun h => hl (h2 _ h)))⟩
  have ref := traces_refl hs
  have dead : ∀ {b : FS}, Guarded j (env.untar t).1 .failed b := fun {b} => ⟨trivial, fun e _ _ h => absurd trivial h⟩
  -- a file is put somewhere
  have put : ∀ {pc' : PC} {b : FS} {m : Mode} {h : Str × Nat} {k : List Comp}, extractFile env m fs h (RPath.goTo j.dir k) = some b →
      (∀ c ∈ k, ∃ s, c = Comp.normal s) →
      pc'.turned → (∀ x, pc.loose x → pc'.loose x) → (m.isCopy = true ∨ pc'.loose k) → Guarded j (env.untar t).1 pc' b := by
    intro pc' b m h k hx hk h1 h2 h3
    obtain ⟨ht, hoth, _, hal, _⟩ := traces_extractFile hs hx
    refine ⟨h1, fun e he hr hl => ?_⟩
    have ha := hg.2 e he hr (fun h => hl (h2 _ h))
    by_cases hp : place j.dir e = RPath.goTo j.dir k
    · have hke : subpath e = k := goTo_inj (hpl e he hr) hk hp
      rcases h3 with h3 | h3
      · rw [hp] at ha ⊢
        exact hal h3 ha
      · rw [hke] at hl; exact absurd h3 hl
    · exact alone_keep hs ht (hoth _ hp) ha
  cases pc with
  | start =>
    simp only [Job.step]
    cases hex : j.expected with
    | none => exact still ref rfl trivial (fun _ h => h)
    | some i =>
      cases hca : j.cache with
      | false => exact still ref rfl trivial (fun _ h => h)
      | true =>
        simp only
        split
        · exact still ref rfl trivial (fun _ h => h)
        · exact still ref rfl trivial (fun _ h => h)
        · rename_i idx hix
          refine still ref rfl ?_ (fun _ h => h)
          obtain ⟨t', ht', _, _, hidx⟩ := hh i idx hix
          have htt : t' = t := hfit t' (by unfold Job.Fits; rw [hex]; exact ht')
          subst htt
          exact cacheMode_copy (.inr ((hidx trivial).2 hsc))
  | linkDir m todo created =>
    simp only [Job.step]
    split
    · split
      · exact still ref rfl trivial (fun _ h => h.elim)
      · exact dead
    · split
      · exact still ref rfl trivial (fun _ h => h)
      · rename_i hm
        exact still (traces_mkdirp hs hm).1 (traces_mkdirp hs hm).2 hg.1 (fun _ h => h)
  | link m k h r created =>
    obtain ⟨h1, _⟩ := hi
    obtain ⟨e, he, hr, hk, _⟩ := h1 (k, h) (List.mem_cons_self ..)
    simp only [Job.step]
    split
    · exact still ref rfl trivial (fun _ h => h)
    · rename_i hx
      exact put hx (by simp only at hk; rw [← hk]; exact hpl e he hr) hg.1 (fun _ h => h) (.inl hg.1)
  | evict =>
    simp only [Job.step]
    split
    · exact dead
    · split
      · exact dead
      · rename_i hx
        exact still (traces_evict hs hx).1 (traces_evict hs hx).2 trivial (fun _ h => h)
  | fetch c =>
    simp only [Job.step]
    repeat' split
    all_goals first | exact dead | exact still ref rfl trivial (fun _ h => h)
  | folder c b =>
    simp only [Job.step]
    split
    · exact dead
    · rename_i hm
      refine still (traces_mkdirp hs hm).1 (traces_mkdirp hs hm).2 ?_ (fun _ h => h.elim)
      cases c with
      | false => trivial
      | true => exact fun h => by cases h
  | entry c b todo s =>
    simp only [Job.step]
    split
    · split
      · refine still ref rfl ?_ ?_
        · cases c with
          | false => trivial
          | true => exact hg.1
        · cases c with
          | false => exact fun _ h => h
          | true => exact fun _ h => h
      · exact dead
    · split
      · split
        · exact dead
        · rename_i hm
          cases c with
          | false => exact still (traces_mkdirp hs hm).1 (traces_mkdirp hs hm).2 trivial (fun _ h => h.elim)
          | true => exact still (traces_mkdirp hs hm).1 (traces_mkdirp hs hm).2 hg.1 (fun _ h => h)
      · cases c with
        | false => exact still ref rfl trivial (fun _ h => h)
        | true => exact still ref rfl hg.1 (fun _ h => h)
  | plain b e r s =>
    obtain ⟨pre, hA, hre⟩ := hi
    have he : e ∈ (env.untar t).1 := by rw [hA.2.2.1]; simp
    simp only [Job.step]
    split
    · exact dead
    · refine ⟨trivial, fun e' he' hr' _ => ?_⟩
      have ht := traces_create (p := RPath.goTo j.dir (subpath e)) (c := e.content)
        (mo := ((fs.create (RPath.goTo j.dir (subpath e)) e.content).setMode fs.next (env.newMode e.bits)).mode) hs
      by_cases hp : place j.dir e' = RPath.goTo j.dir (subpath e)
      · refine alone_new (i := fs.next) ht ?_ (Nat.le_refl _)
        rw [hp]
        exact upd_self _ _ _
      · refine alone_keep hs ht ?_ (hg.2 e' he' hr' (fun h => h))
        exact upd_ne _ _ hp
  | commit b e r s => exact still (traces_commit hs) rfl hg.1 (fun _ h => h)
  | write b e r s =>
    obtain ⟨pre, hA, hre, _⟩ := hi
    have he : e ∈ (env.untar t).1 := by rw [hA.2.2.1]; simp
    simp only [Job.step]
    split
    · exact dead
    · rename_i fs' hx
      have grow : ∀ {k : List Comp}, k ∈ s.idx.files.keys → k ∈ (s.remember env e).idx.files.keys := by
        intro k hk
        simp only [Book.remember]
        exact mem_insert.2 (.inr hk)
      split
      · rename_i hpj
        exact put hx (hpl e he hre) hg.1 (fun _ h => h) (.inr (.inl hpj))
      · refine put hx (hpl e he hre) hg.1 (fun k h => ?_) ?_
        · rcases h with h | ⟨h, hk⟩
          · exact .inl h
          · exact .inr ⟨h, grow hk⟩
        · cases hm : s.mode.isCopy with
          | true => exact .inl rfl
          | false => exact .inr (.inr ⟨hm, mem_insert.2 (.inl rfl)⟩)
  | manifest b e r s =>
    have grow : ∀ {k : List Comp} {s' : Book}, s'.idx.files = s.idx.files → k ∈ s.idx.files.keys → k ∈ (s'.remember env e).idx.files.keys := by
      intro k s' hf hk
      simp only [Book.remember, hf]
      exact mem_insert.2 (.inr hk)
    simp only [Job.step]
    split
    · exact dead
    · split
      · split
        · rename_i hm
          refine still ref rfl (fun _ => hm) (fun k h => ?_)
          rcases h with h | ⟨h, hk⟩
          · exact .inl h
          · rw [hm] at h; cases h
        · refine still ref rfl trivial (fun k h => ?_)
          rcases h with h | ⟨h, hk⟩
          · exact .inl h
          · exact .inr (((ho s.idx.files).map Prod.fst).mem_iff.2 hk)
      · refine still ref rfl hg.1 (fun k h => ?_)
        rcases h with h | ⟨h, hk⟩
        · exact .inl h
        · exact .inr ⟨h, grow rfl hk⟩
  | redo b e r s m l =>
    simp only [Job.step]
    split
    · refine still ref rfl (fun _ => rfl) (fun k h => ?_)
      rcases h with h | h
      · exact .inl h
      · cases h
    · rename_i k h l
      split
      · exact dead
      · rename_i hx
        have ht := (traces_remove hs hx).1
        have hb := remove_eq hx
        obtain ⟨pre, _, _, _, _, _, _, hfrom⟩ := hi
        obtain ⟨e0, he0, hr0, hk0, _⟩ := hfrom (k, h) (List.mem_cons_self ..)
        refine ⟨trivial, fun e' he' hr' hl => ?_⟩
        by_cases hp : place j.dir e' = RPath.goTo j.dir k
        · intro i hi'
          rw [hp, hb] at hi'
          simp only [upd_self] at hi'
          cases hi'
        · refine alone_keep hs ht (by rw [hb]; exact upd_ne _ _ hp) (hg.2 e' he' hr' fun hx => hl ?_)
          rcases hx with hx | hx
          · exact .inl hx
          · simp only [List.map_cons, List.mem_cons] at hx
            rcases hx with hx | hx
            · exact absurd (by rw [← hx]; rfl) hp
            · exact .inr hx
  | redone b e r s m k h l =>
    obtain ⟨pre, _, _, _, _, _, _, _, hfrom, _⟩ := hi
    obtain ⟨e0, he0, hr0, hk0, _⟩ := hfrom (k, h) (List.mem_cons_self ..)
    simp only [Job.step]
    split
    · exact dead
    · rename_i hx
      exact put hx (by simp only at hk0; rw [← hk0]; exact hpl e0 he0 hr0) trivial (fun _ h => h) (.inl rfl)
  | bins c b l s =>
    simp only [Job.step]
    split
    · refine still ref rfl ?_ ?_
      · cases c with
        | false => trivial
        | true => exact hg.1
      · cases c with
        | false => exact fun _ h => h
        | true => exact fun _ h => h
    · split
      · exact dead
      · rename_i hx
        obtain ⟨mo, rfl⟩ := setBinMode_eq hx
        refine still (traces_same hs rfl rfl rfl) rfl ?_ ?_
        · cases c with
          | false => trivial
          | true => exact hg.1
        · cases c with
          | false => exact fun _ h => h
          | true => exact fun _ h => h
  | record c b s =>
    obtain ⟨_, hK, _⟩ := hi
    have ht : Traces fs (recordIndex c (j.expected.getD (env.sri b)) { s.idx with binPaths := s.idx.binPaths ++ Mani.binsOf s.mani } fs) ∧
        (recordIndex c (j.expected.getD (env.sri b)) { s.idx with binPaths := s.idx.binPaths ++ Mani.binsOf s.mani } fs).files = fs.files := by
      unfold recordIndex
      split
      · exact ⟨traces_same hs rfl rfl rfl, rfl⟩
      · exact ⟨ref, rfl⟩
    simp only [Job.step]
    refine still ht.1 ht.2 trivial (fun k h => ?_)
    cases c with
    | false => exact h.elim
    | true =>
      rcases h with h | ⟨h, _⟩
      · exact h
      · obtain ⟨e, he, hr, hpj, hm⟩ := hsc
        have := hg.1 (((hK rfl).2 trivial).2.2 ⟨e, he, hr, hpj, hm⟩)
        rw [this] at h; cases h
  | done i => exact hg
  | failed => exact hg

theorem guarded_one {env : Env} {jobs tar o} (ho : ∀ f, (env.ord f).Perm f) (hcol : NoCol env) (ha : Separate env jobs tar) {n : Nat} {j : Job}
    (hj : jobs n = some j) (hsc : HasScripts env (env.untar (tar n)).1) (m : Nat) {w : Runs} (h : Inv True env jobs tar o w)
    (hg : Guarded j (env.untar (tar n)).1 (w.pcs n) w.fs) :
    Guarded j (env.untar (tar n)).1 ((w.step env jobs m).pcs n) (w.step env jobs m).fs := by
  unfold Runs.step
  cases hm : jobs m with
  | none => exact hg
  | some j' =>
    simp only
    by_cases he : n = m
    · subst he
      rw [hj] at hm; cases hm
      rw [upd_self]
      exact guarded_step ho (ha.fits n j hj) (ha.plain n j hj) hsc h.sane h.honest (h.pc n j hj) hg
    · rw [upd_ne _ _ he]
      obtain ⟨hdo, _⟩ := step_ok ho (fun _ => hcol) (ha.fits m j' hm) (ha.plain m j' hm) (ha.distinct m j' hm) h.sane (h.right m j' hm)
        h.honest (h.pc m j' hm)
      refine guarded_other h.sane (step_traces h.sane) (fun e hx hr => ?_) hg
      exact hdo.files _ (fun e2 he2 hr2 hx2 => ha.apart m j' hm n j hj (Ne.symm he) e2 he2 hr2 e hx hr hx2)

theorem guarded_run {env : Env} {jobs tar o} (ho : ∀ f, (env.ord f).Perm f) (hcol : NoCol env) (ha : Separate env jobs tar) {n : Nat} {j : Job}
    (hj : jobs n = some j) (hsc : HasScripts env (env.untar (tar n)).1) (sched : List Nat) (w : Runs) (h : Inv True env jobs tar o w)
    (hg : Guarded j (env.untar (tar n)).1 (w.pcs n) w.fs) :
    Guarded j (env.untar (tar n)).1 ((w.run env jobs sched).pcs n) (w.run env jobs sched).fs := by
  induction sched generalizing w with
  | nil => exact hg
  | cons m r ih => exact ih _ (inv_step ho (fun _ => hcol) ha h) (guarded_one ho hcol ha hj hsc m h hg)

end Tar
end Oro
