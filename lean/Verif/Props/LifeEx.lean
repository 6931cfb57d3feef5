import Verif.Props.LifeAgreed
import Verif.Props.WholeEx
/- C86: a concrete life. -/

set_option linter.unusedSectionVars false

namespace Oro
namespace Life
namespace ExLife
open Cli Whole Works
open ExL (Pk Sp St E Nd mkEnv envA manA chosen agreedA reachedA requires_deps view codec toPackage)
open Again.ExG (pk)

/-! The project wants e and n@1, and e any n. Later it wants any n only, when n@2 is the newest. -/

def manB : Manifest Str := { deps := [(['n'], ['^'])] }
def ed : Editing Bool (Manifest Str) Unit where
  read _ := some ()
  value _ := .null
  withValue _ _ := ()
  write _ := true
  corgi j := some (if j then manA else manB)

def k : Setting Pk Sp Nat Nat := { Whole.ExC.k with env := envA 1 }
def chosenB (n : Str) : Pk × Manifest Str := ((n, 2), {})

theorem immutable : Immutable k := by
  intro n p q h1 h2 h3
  have e1 : n.version = some p.2 := h1.2.1
  have e2 : n.version = some q.2 := h2.2.1
  have e3 : p.1 = q.1 := h3
  have : p = q := Prod.ext e3 (by rw [e1] at e2; exact Option.some.inj e2)
  rw [this]

theorem known {i : Nat} {x : Pk} {mx : Manifest Str} (h : KnownPackage (envA i) none x mx) :
    mx = { deps := [(['n'], ['^'])] } ∨ mx = {} := by
  rcases h with ⟨spec, h⟩ | ⟨l, π, ent, h, _⟩
  · simp only [envA, mkEnv] at h
    obtain ⟨r, h1, h2⟩ := Option.map_eq_some_iff.1 h
    have := ExW.lookup_mem h1
    simp only [Prod.mk.injEq] at h2
    obtain ⟨rfl, rfl⟩ := h2
    simp only [List.mem_cons, Prod.mk.injEq, List.not_mem_nil, or_false] at this
    rcases this with ⟨_, h⟩ | ⟨_, h⟩ | ⟨_, h⟩ <;> rw [h]
    · exact .inl rfl
    · exact .inr rfl
    · exact .inr rfl
  · cases h

theorem plain {i : Nat} {m : Manifest Str} (hm : m.Proper) (hn : ∀ n raw ty, Requires m true n raw ty → PlainName n) : Plain (envA i) none m pk where
  project := ⟨hm, hn⟩
  packages := by
    intro x mx h
    refine ⟨?_, ?_, rfl, ?_⟩
    · rcases known h with rfl | rfl <;> (unfold Manifest.Proper; decide)
    · intro n raw ty hq
      rcases known h with rfl | rfl
      · have := requires_deps hq
        simp only [List.mem_cons, Prod.mk.injEq, List.not_mem_nil, or_false] at this
        rw [this.1]
        exact ExW.plainN
      · cases requires_deps hq
    · intro r
      have : nmWord :: r ≠ [ExW.pj] := by intro h; cases h
      simp [pk, this]

theorem askedB {n raw : Str} (h : AskedFor manB chosenB n raw) : n = ['n'] ∧ raw = ['^'] := by
  rcases h with ⟨ty, h⟩ | ⟨_, ty, _, h⟩
  · have := requires_deps h
    simpa using this
  · cases requires_deps h

theorem reachedB {n : Str} (h : Reached manB chosenB n) : n = ['n'] := by
  cases h with
  | direct h => exact (by simpa using requires_deps h : n = ['n'] ∧ _).1
  | dep _ h => cases requires_deps h

theorem agreedB : Agreed (envA 2) none manB chosenB where
  fits := by
    intro n raw h
    obtain ⟨rfl, rfl⟩ := askedB h
    exact ⟨_, rfl, by decide +kernel, .inr ⟨fun l ent h => (by cases h), by decide +kernel⟩⟩
  flat := by intro l π ent h; cases h
  reads := fun n h => ⟨⟨List.nodup_nil, List.nodup_nil, List.nodup_nil⟩, fun d hd => (by cases hd)⟩

/-- `oro apply`, in the first state of the registry -/
def first : Call Pk Sp := ⟨.apply, {}, (envA 1).fetch, 10, [.pop, .pull, .pull, .complete (['e'], ['^']), .complete (['n'], ['1']), .deliver, .pop, .pop]⟩
/-- `oro apply`, in the second -/
def second : Call Pk Sp := ⟨.apply, {}, (envA 2).fetch, 10, [.pop, .pull, .complete (['n'], ['^']), .deliver, .pop]⟩

def w0 : World Nm (Option KDoc) Bool := Whole.ExC.w
/-- package.json is edited, and the lockfile removed -/
def w1 : World Nm (Option KDoc) Bool := { (run ed k first w0).1 with pkg := false, lock := none }

theorem call1 : AgreedCall ed k first w0 chosen where
  quiet := .inr fun _ _ _ => rfl
  agreed := by
    intro m _ _ hm
    have : m = manA := (Option.some.inj hm).symm
    subst this
    refine ⟨plain (by unfold Manifest.Proper; decide) ?_, agreedA, fun d _ h => (by cases h), fun n hn => ?_⟩
    · intro n raw ty h
      have := requires_deps h
      simp only [List.mem_cons, Prod.mk.injEq, List.not_mem_nil, or_false] at this
      rcases this with ⟨rfl, _⟩ | ⟨rfl, _⟩
      · exact ExW.plainE
      · exact ExW.plainN
    · rcases reachedA hn with rfl | rfl
      · exact ⟨by decide +kernel, by decide⟩
      · exact ⟨by decide +kernel, by decide⟩

theorem call2 : AgreedCall ed k second w1 chosenB where
  quiet := .inr fun _ _ _ => rfl
  agreed := by
    intro m _ _ hm
    have : m = manB := (Option.some.inj hm).symm
    subst this
    refine ⟨plain (i := 2) (by unfold Manifest.Proper; decide) ?_, agreedB, fun d _ h => (by cases h), fun n hn => ?_⟩
    · intro n raw ty h
      have := requires_deps h
      simp only [List.mem_cons, Prod.mk.injEq, List.not_mem_nil, or_false] at this
      rw [this.1]
      exact ExW.plainN
    · rw [reachedB hn]
      exact ⟨rfl, by decide⟩

theorem life : AgreedLife ed k w1 := .edited _ false none (.command w0 first chosen (.new w0 Whole.ExC.fresh) call1)

theorem ends : Ends (k.later second.fetch second.concurrency) second.sch manB w1.lock := by
  intro root hroot
  have h1 : Node.new (envA 1).parse [] (['p'], 0) manB true = some root := hroot
  have h2 : Node.new (envA 1).parse [] (['p'], 0) manB true = some (ExL.mkRoot [(['n'], ['^'])]) := rfl
  rw [h2] at h1
  cases h1
  have h : (match rrun { envA 1 with fetch := (envA 2).fetch, concurrency := 10 } none (rinit (ExL.mkRoot [(['n'], ['^'])])) second.sch with
    | some (.ok s) => s.done
    | _ => false) = true := by decide +kernel
  split at h
  · rename_i s hs
    exact ⟨_, hs, fun s' h' => by cases h'; exact h⟩
  · cases h

/-- the hypotheses of `C86_agreed` are met … -/
example : ∃ w', run ed k second w1 = (w', true) ∧
    ProjectWorks (k.later second.fetch second.concurrency).env none pk ExW.v w'.nm.tree manB := by
  obtain ⟨w', _, _, h1, h2, _⟩ := C86_agreed ExW.v immutable life call2 rfl rfl rfl (m := manB) rfl ends
  exact ⟨w', h1, h2⟩

/-- … and something happens: e and n@1 come; e goes, and n@2 comes -/
example : (run ed k first w0).2 = true ∧ (run ed k first w0).1.nm.tree [['e'], ExW.pj] = some (.file [1]) ∧
    (run ed k first w0).1.nm.tree [['n'], ExW.pj] = some (.file [1]) ∧
    (run ed k second w1).2 = true ∧ (run ed k second w1).1.nm.tree [['e'], ExW.pj] = none ∧ (run ed k second w1).1.nm.tree [['e']] = none ∧
    (run ed k second w1).1.nm.tree [['n'], ExW.pj] = some (.file [2]) := by decide +kernel

/-- the tree of the first command -/
theorem resolves1 : ∃ g, ResolvesTo ed k first w0 manA g := by
  have h : (Whole.resolve (k.later first.fetch first.concurrency) first.sch manA (locked first) w0.lock).isSome = true := by decide +kernel
  obtain ⟨g, hg⟩ := Option.isSome_iff_exists.1 h
  exact ⟨g, rfl, hg⟩

/-- the hypotheses of `C86_life_partial` and `C86_works_partial` are met -/
example : ∃ g, Lived ed k w1 (.tree g) ∧ Says k w1 (.tree g) ∧ Fits ed k second w1 (.tree g) := by
  obtain ⟨g, hg⟩ := resolves1
  have hf := agreed_fits immutable call1 (C86_life_partial (.new (ed := ed) w0 Whole.ExC.fresh)) trivial
  have hl : Lived ed k w1 (.tree g) := .edited _ _ false none (.command w0 .fresh (.tree g) first (.new w0 Whole.ExC.fresh) hf (.installed manA g rfl rfl hg))
  exact ⟨g, hl, C86_life_partial hl, agreed_fits immutable call2 (C86_life_partial hl) (agreed_flat call1 rfl rfl hg).1⟩

/-! a project with a version conflict: C81's example -/

def edC : Editing Bool (Manifest Str) Unit := { ed with corgi := Whole.ExC.read }
def callC : Call Pk Sp := ⟨.apply, {}, ExL.envC.fetch, ExL.envC.concurrency, Whole.ExC.schC⟩
theorem resolvesC : ResolvesTo edC Whole.ExC.k callC Whole.ExC.w Again.ExG.manC ExL.treeC.graph := ⟨rfl, Whole.ExC.resolves⟩

theorem fitsC : Fits edC Whole.ExC.k callC Whole.ExC.w .fresh := by
  refine ⟨.inr fun _ _ _ => rfl, fun m g _ _ h => ?_⟩
  have hm : m = Again.ExG.manC := (Option.some.inj h.1).symm
  subst hm
  have hg : g = ExL.treeC.graph := by
    have := h.2
    have h2 := resolvesC.2
    rw [h2] at this
    exact (Option.some.inj this).symm
  subst hg
  exact ⟨Again.ExG.plain, Whole.ExC.names, fun _ => trivial⟩

/-- the hypotheses of `C86_again_partial` are met -/
example : ∃ w1, run edC Whole.ExC.k callC Whole.ExC.w = (w1, true) ∧ ∀ (fetch : Sp → Option (Pk × Manifest Str)) (concurrency : Nat) (sch : List (REvent Sp)),
    Ends (Whole.ExC.k.later fetch concurrency) sch Again.ExG.manC w1.lock →
    ∃ w2, run edC Whole.ExC.k ⟨.apply, {}, fetch, concurrency, sch⟩ w1 = (w2, true) ∧ w2.lock = w1.lock ∧
      ∀ p, ¬ Hoisted.InBin p → w2.nm.tree p = w1.nm.tree p := by
  obtain ⟨w1, h1, h2⟩ := C86_again_partial (.new _ Whole.ExC.fresh) fitsC rfl rfl rfl resolvesC (Whole.ExC.sound _ Whole.ExC.resolves)
  refine ⟨w1, h1, fun fetch concurrency sch he => ?_⟩
  obtain ⟨w2, a1, _, a2, _, _, _, a3⟩ := h2 fetch concurrency sch {} rfl rfl he
  exact ⟨w2, a1, a2, a3⟩

/-- and those of `C86_works_partial` -/
example : ∃ w1, run edC Whole.ExC.k callC Whole.ExC.w = (w1, true) ∧ ProjectWorks ExL.envC none pk ExW.v w1.nm.tree Again.ExG.manC :=
  C86_works_partial ExW.v (.new _ Whole.ExC.fresh) fitsC rfl rfl resolvesC Again.ExG.sound

end ExLife
end Life
end Oro
