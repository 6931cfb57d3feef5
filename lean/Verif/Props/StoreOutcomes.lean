import Verif.Props.StoreRun
/-
C95: what the outcomes of an installation by the isolated linker mean, whatever was there before.
-/

set_option linter.unusedSectionVars false

namespace Oro
namespace Iso
open Hoisted (Bytes XOpts)
variable {P S : Type}

/-- Was the package extracted (and what is to be rebuilt)?  `none`: that is not settled yet, or it failed. -/
def LPhase.fresh : LPhase → Option (Option (Bool × Bool))
  | .linking x _ | .making x _ _ | .placing x _ _ | .finished x => some x
  | _ => none

variable {env : Tar.Env} {build : Bytes → Option (Bool × Bool)} {v : Env} {g : Graph Str P S} {o : XOpts}
  {fetch : P → Option Tar.Integrity × Option (List Tar.Ev)} {fs : Tar.FS}

theorem lrun_snoc' (w : LRun) (l : List Nat) (n : Nat) :
    w.run env build o v g fetch (l ++ [n]) = (w.run env build o v g fetch l).step env build o v g fetch n := by simp [LRun.run]

theorem lstep_other {w : LRun} {n m : Nat} (h : n ≠ m) : (w.step env build o v g fetch m).phase n = w.phase n ∧
    (w.step env build o v g fetch m).runs.pcs n = w.runs.pcs n := by
  unfold LRun.step Tar.Runs.step
  repeat' split
  all_goals first | exact ⟨rfl, rfl⟩ | simp [Tar.upd_ne _ _ h]

/-- once an extraction is over its point of progress stays -/
theorem lstep_pcs {w : LRun} {n : Nat} (h : w.phase n ≠ .waiting) (h' : w.phase n ≠ .extracting) :
    (w.step env build o v g fetch n).runs.pcs = w.runs.pcs := by
  unfold LRun.step
  split
  · split
    · rename_i hx; exact absurd hx h
    · rename_i hx; exact absurd hx h'
    all_goals repeat' split
    all_goals rfl
  · rfl

/-- Whatever was there before, and however it goes: a package counts as extracted only if its extraction succeeded and its manifest
was read; it is passed over only if its folder was there when it was looked at; and it fails only if its extraction failed, its
manifest could not be read, or a folder or a link could not be made. -/
theorem C95_outcomes (sched : List Nat) (n : Nat) (j : Tar.Job) (hj : jobsFor o v g fetch n = some j) :
    (∀ b, (((LRun.init o fs).run env build o v g fetch sched).phase n).fresh = some (some b) →
      (∃ i, ((LRun.init o fs).run env build o v g fetch sched).runs.pcs n = .done i) ∧
      ∃ pre, pre <+: sched ∧ ∃ c, Tar.Holds ((LRun.init o fs).run env build o v g fetch pre).runs.fs (j.dir ++ [Tar.kPackageJson]) c ∧
        build c = some b) ∧
    ((((LRun.init o fs).run env build o v g fetch sched).phase n).fresh = some none →
      ∃ pre, pre <+: sched ∧ ((LRun.init o fs).run env build o v g fetch pre).runs.fs.taken j.dir = true) ∧
    (((LRun.init o fs).run env build o v g fetch sched).phase n = .failed →
      ((LRun.init o fs).run env build o v g fetch sched).runs.pcs n = .failed ∨
      (∃ pre, pre <+: sched ∧ ∀ c, Tar.Holds ((LRun.init o fs).run env build o v g fetch pre).runs.fs (j.dir ++ [Tar.kPackageJson]) c → build c = none) ∨
      ∃ pre d, pre <+: sched ∧
        let w := (LRun.init o fs).run env build o v g fetch pre
        (Tar.mkdirp w.cache w.runs.fs (o.root ++ nmWord :: (entryFor v g n d).dropLast) = none ∨
         (w.look o (entryFor v g n d) = none ∧ w.runs.fs.dirs (o.root ++ nmWord :: (entryFor v g n d).dropLast) = false))) := by
  induction sched using List.reverseRecOn with
  | nil => exact ⟨fun b h => (by cases h), fun h => (by cases h), fun h => (by cases h)⟩
  | append_singleton l m ih =>
    have hpre : l <+: l ++ [m] := List.prefix_append _ _
    obtain ⟨ih1, ih2, ih3⟩ := ih
    rw [lrun_snoc']
    generalize hw : (LRun.init o fs).run env build o v g fetch l = w at ih1 ih2 ih3 ⊢
    have keep : ∀ w' : LRun, (w'.phase n).fresh = (w.phase n).fresh → (w'.phase n = .failed → w.phase n = .failed) →
        ((w.phase n ≠ .waiting ∧ w.phase n ≠ .extracting) → w'.runs.pcs n = w.runs.pcs n) →
        (∀ b, (w'.phase n).fresh = some (some b) →
          (∃ i, w'.runs.pcs n = .done i) ∧
          ∃ pre, pre <+: l ++ [m] ∧ ∃ c, Tar.Holds ((LRun.init o fs).run env build o v g fetch pre).runs.fs (j.dir ++ [Tar.kPackageJson]) c ∧
            build c = some b) ∧
        ((w'.phase n).fresh = some none →
          ∃ pre, pre <+: l ++ [m] ∧ ((LRun.init o fs).run env build o v g fetch pre).runs.fs.taken j.dir = true) ∧
        (w'.phase n = .failed →
          w'.runs.pcs n = .failed ∨
          (∃ pre, pre <+: l ++ [m] ∧ ∀ c, Tar.Holds ((LRun.init o fs).run env build o v g fetch pre).runs.fs (j.dir ++ [Tar.kPackageJson]) c → build c = none) ∨
          ∃ pre d, pre <+: l ++ [m] ∧
            let w := (LRun.init o fs).run env build o v g fetch pre
            (Tar.mkdirp w.cache w.runs.fs (o.root ++ nmWord :: (entryFor v g n d).dropLast) = none ∨
             (w.look o (entryFor v g n d) = none ∧ w.runs.fs.dirs (o.root ++ nmWord :: (entryFor v g n d).dropLast) = false))) := by
      intro w' h1 h2 h3
      refine ⟨fun b hb => ?_, fun hb => ?_, fun hf => ?_⟩
      · rw [h1] at hb
        obtain ⟨⟨i, hi⟩, pre, hp, hc⟩ := ih1 b hb
        rw [h3 ⟨fun hx => (by rw [hx] at hb; cases hb), fun hx => (by rw [hx] at hb; cases hb)⟩]
        exact ⟨⟨i, hi⟩, pre, hp.trans hpre, hc⟩
      · rw [h1] at hb
        obtain ⟨pre, hp, hc⟩ := ih2 hb
        exact ⟨pre, hp.trans hpre, hc⟩
      · have hf' := h2 hf
        rw [h3 ⟨fun hx => (by rw [hx] at hf'; cases hf'), fun hx => (by rw [hx] at hf'; cases hf')⟩]
        rcases ih3 hf' with h | ⟨pre, hp, h⟩ | ⟨pre, d, hp, h⟩
        · exact .inl h
        · exact .inr (.inl ⟨pre, hp.trans hpre, h⟩)
        · exact .inr (.inr ⟨pre, d, hp.trans hpre, h⟩)
    by_cases he : n = m
    · subst he
      by_cases hlt : n < g.nodes.length
      · have hstep : w.step env build o v g fetch n = w.step env build o v g fetch n := rfl
        conv_rhs at hstep => unfold LRun.step
        rw [if_pos hlt] at hstep
        have hpcs := lstep_pcs (env := env) (build := build) (v := v) (g := g) (o := o) (fetch := fetch) (w := w) (n := n)
        cases hph : w.phase n with
        | waiting =>
          simp only [hph, hj] at hstep
          cases ht : w.runs.fs.taken j.dir with
          | true =>
            rw [ht, if_pos rfl] at hstep
            rw [hstep]
            simp only [Tar.upd_self]
            exact ⟨fun b h => (by cases h), fun _ => ⟨l, hpre, by rw [hw]; exact ht⟩, fun h => (by cases h)⟩
          | false =>
            rw [ht, if_neg (by simp)] at hstep
            rw [hstep]
            simp only [Tar.upd_self]
            exact ⟨fun b h => (by cases h), fun h => (by cases h), fun h => (by cases h)⟩
        | extracting =>
          simp only [hph, hj] at hstep
          cases hpc : w.runs.pcs n with
          | failed =>
            simp only [hpc] at hstep
            rw [hstep]
            simp only [Tar.upd_self]
            exact ⟨fun b h => (by cases h), fun h => (by cases h), fun _ => .inl hpc⟩
          | done i =>
            simp only [hpc] at hstep
            rw [hstep]
            cases hb : (w.runs.fs.files (j.dir ++ [Tar.kPackageJson])).bind fun i => build (w.runs.fs.content i) with
            | none =>
              simp only [Tar.upd_self]
              refine ⟨fun b h => (by cases h), fun h => (by cases h), fun _ => .inr (.inl ⟨l, hpre, fun c hc => ?_⟩)⟩
              rw [hw] at hc
              obtain ⟨k, h1, h2⟩ := hc
              rw [h1, Option.bind_some, h2] at hb
              exact hb
            | some b =>
              simp only [Tar.upd_self]
              obtain ⟨k, h1, h2⟩ := Option.bind_eq_some_iff.1 hb
              refine ⟨fun b' h => ?_, fun h => (by cases h), fun h => (by cases h)⟩
              cases h
              exact ⟨⟨i, hpc⟩, l, hpre, _, ⟨k, by rw [hw]; exact h1, by rw [hw]⟩, h2⟩
          | _ =>
            simp only [hpc] at hstep
            rw [hstep]
            simp only [hph]
            exact ⟨fun b h => (by cases h), fun h => (by cases h), fun h => (by cases h)⟩
        | linking x todo =>
          have hpcs := hpcs (by rw [hph]; exact fun h => (by cases h)) (by rw [hph]; exact fun h => (by cases h))
          cases todo with
          | nil =>
            simp only [hph] at hstep
            refine keep _ ?_ ?_ (fun _ => by rw [hpcs])
            · rw [hstep]; simp [Tar.upd_self, hph, LPhase.fresh]
            · rw [hstep]; simp [Tar.upd_self]
          | cons d r =>
            simp only [hph] at hstep
            by_cases hex : existsAt v (w.look o) (entryFor v g n d)
            · rw [if_pos hex] at hstep
              refine keep _ ?_ ?_ (fun _ => by rw [hpcs])
              · rw [hstep]; simp [Tar.upd_self, hph, LPhase.fresh]
              · rw [hstep]; simp [Tar.upd_self]
            · rw [if_neg hex] at hstep
              refine keep _ ?_ ?_ (fun _ => by rw [hpcs])
              · rw [hstep]; simp [Tar.upd_self, hph, LPhase.fresh]
              · rw [hstep]; simp [Tar.upd_self]
        | making x d todo =>
          have hpcs := hpcs (by rw [hph]; exact fun h => (by cases h)) (by rw [hph]; exact fun h => (by cases h))
          simp only [hph] at hstep
          cases hm : Tar.mkdirp w.cache w.runs.fs (o.root ++ nmWord :: (entryFor v g n d).dropLast) with
          | none =>
            simp only [hm] at hstep
            rw [hstep]
            simp only [Tar.upd_self]
            refine ⟨fun b h => (by cases h), fun h => (by cases h), fun _ => .inr (.inr ⟨l, d, hpre, ?_⟩)⟩
            rw [hw]
            exact .inl hm
          | some cf =>
            obtain ⟨c, f⟩ := cf
            refine keep _ ?_ ?_ (fun _ => by rw [hpcs])
            · rw [hstep]; simp [Tar.upd_self, hm, hph, LPhase.fresh]
            · rw [hstep]; simp [Tar.upd_self, hm]
        | placing x d todo =>
          have hpcs := hpcs (by rw [hph]; exact fun h => (by cases h)) (by rw [hph]; exact fun h => (by cases h))
          simp only [hph] at hstep
          by_cases hlook : w.look o (entryFor v g n d) ≠ none
          · rw [if_pos hlook] at hstep
            refine keep _ ?_ ?_ (fun _ => by rw [hpcs])
            · rw [hstep]; simp [Tar.upd_self, hph, LPhase.fresh]
            · rw [hstep]; simp [Tar.upd_self]
          · rw [if_neg hlook] at hstep
            cases hd : w.runs.fs.dirs (o.root ++ nmWord :: (entryFor v g n d).dropLast) with
            | true =>
              rw [hd, if_pos rfl] at hstep
              refine keep _ ?_ ?_ (fun _ => by rw [hpcs])
              · rw [hstep]; simp [Tar.upd_self, hph, LPhase.fresh]
              · rw [hstep]; simp [Tar.upd_self]
            | false =>
              rw [hd, if_neg (by simp)] at hstep
              rw [hstep]
              simp only [Tar.upd_self]
              refine ⟨fun b h => (by cases h), fun h => (by cases h), fun _ => .inr (.inr ⟨l, d, hpre, ?_⟩)⟩
              rw [hw]
              exact .inr ⟨not_not.1 hlook, hd⟩
        | _ =>
          simp only [hph] at hstep
          rw [hstep]
          exact keep _ rfl id (fun _ => rfl)
      · have : w.step env build o v g fetch n = w := by unfold LRun.step; rw [if_neg hlt]
        rw [this]
        exact keep _ rfl id (fun _ => rfl)
    · obtain ⟨h1, h2⟩ := lstep_other (env := env) (build := build) (o := o) (v := v) (g := g) (fetch := fetch) (w := w) he
      exact keep _ (by rw [h1]) (by rw [h1]; exact id) (fun _ => h2)

/-- nothing is at the place, whether a link, a file or a folder -/
def Free (o : XOpts) (w : LRun) (p : Loc) : Prop :=
  w.links p = none ∧ w.runs.fs.files (o.root ++ nmWord :: p) = none ∧ w.runs.fs.dirs (o.root ++ nmWord :: p) = false

theorem look_free {w : LRun} {p : Loc} : w.look o p = none ↔ Free o w p := by
  unfold LRun.look Free
  cases w.links p with
  | some t => simp
  | none =>
    cases w.runs.fs.files (o.root ++ nmWord :: p) with
    | some i => simp
    | none => cases w.runs.fs.dirs (o.root ++ nmWord :: p) <;> simp

/-- A link is made only where nothing was; links are never changed or removed; and making links removes no file and no folder; and it
is no error if something has come to be there in the meantime. -/
theorem C95_no_clobber (w : LRun) (n : Nat) :
    (∀ p, (w.step env build o v g fetch n).links p ≠ w.links p → Free o w p ∧ (w.step env build o v g fetch n).links p ≠ none) ∧
    ((∃ x d r, w.phase n = .placing x d r) → (w.step env build o v g fetch n).runs = w.runs) ∧
    (∀ x d r, n < g.nodes.length → w.phase n = .placing x d r → ¬ Free o w (entryFor v g n d) →
      (w.step env build o v g fetch n).phase n = .linking x r) := by
  refine ⟨fun p hp => ?_, ?_, fun x d r hn hph hl => ?_⟩
  · rw [← look_free]
    revert hp
    unfold LRun.step
    repeat' split
    all_goals first | exact fun h => absurd rfl h | skip
    rename_i hlook _
    intro hp
    by_cases he : p = entryFor v g n (by assumption)
    · subst he
      exact ⟨not_not.1 hlook, by simp [Tar.upd_self]⟩
    · simp only [Tar.upd_ne _ _ he] at hp
      exact absurd rfl hp
  · rintro ⟨x, d, r, hph⟩
    unfold LRun.step
    simp only [hph]
    split
    · split
      · rfl
      · split <;> rfl
    · rfl
  · rw [← look_free] at hl
    unfold LRun.step
    rw [if_pos hn]
    simp only [hph]
    rw [if_pos hl]
    exact Tar.upd_self _ _ _

end Iso
end Oro
