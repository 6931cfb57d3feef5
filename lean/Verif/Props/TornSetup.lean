import Verif.Props.TornConfig
import Verif.Props.Setup
/- C102, for the answers of the first-time setup (lib.rs:512-585). -/

set_option linter.unusedSectionVars false

namespace Oro
namespace Setup
open Auth Config

/-- if nothing is left of the options then those that are on unless they are switched off are on -/
theorem nothing_on {num : Int → Str} {t : KDoc} (h : collect num t = []) (r : Run (collect num t)) {o : Opt} (ho : o ∈ r.opts) (h1 : o.takes = false)
    (h2 : o.reversed = true) (hs : r.Silent o.name) : r.on o = true := by
  have hn : (collect num t).get? o.name = none := by rw [h]; rfl
  rw [on_value r (collect_wf _) ho h1 h2 hs (by
    intro v hv
    rw [hn] at hv
    cases hv), hn]
  rfl

/-- **C102**, the user's answers: after any command was interrupted while it wrote the file, what is left of it says of every
option what the whole file says, or else the next run does the first-time setup again, and asks again if there is a terminal:
then reports are sent only if the user agrees. -/
theorem C102_asks_again (num : Int → Str) {doc t : KDoc} (h : Torn doc t) : collect num t = collect num doc ∨
    ∀ r : Run (collect num t), r.Silent kFirstTime → r.on firstTimeOpt = true ∧
      (r.ci = false → r.terminal = true → ∀ dsn, reports dsn (r.starts (.doc t)) = true → r.answer = some true) := by
  rcases C102_all_or_nothing num h with e | e
  · exact .inl e
  · right
    intro r hs
    have hon := nothing_on e r r.first_mem rfl rfl hs
    refine ⟨hon, fun hc ht dsn hrep => ?_⟩
    unfold Run.starts start at hrep
    rw [hon, hc, ht] at hrep
    simp only [Bool.not_false, Bool.and_self, if_true] at hrep
    split at hrep
    · simp [reports] at hrep
    · rename_i b hb
      split at hrep
      · simp [reports] at hrep
      · simp only [reports, Bool.and_eq_true] at hrep
        rw [hb, hrep.1]

/-- **C102 fails** for runs without a terminal: a user who refused reports, and whose `oro login` was interrupted at the wrong
moment, sends them from every run in CI from then on. -/
theorem C102_refusal_fails (num : Int → Str) (parse : Str → Option Url) (text : Url → Str) (reg : Url) (c : Stored) :
    ∃ d t : KDoc, Tidy d ∧ (collect num d).get? kTelemetry = some (.bool false) ∧
      (collect num (setCreds parse text reg c d)).get? kTelemetry = some (.bool false) ∧ Torn (setCreds parse text reg c d) t ∧
      ∀ r : Run (collect num t), r.ci = true → r.Silent kTelemetry → reports true (r.starts (.doc t)) = true := by
  refine ⟨sampleConf, [], ?_, rfl, rfl, .after 0, fun r hc hs => ?_⟩
  · refine ⟨rfl, ?_, ?_⟩
    · intro o oc h1 h2
      cases h1
      cases h2
      exact .inr ⟨_, rfl, by decide⟩
    · intro o oc h1 h2
      cases h1
      cases h2
      exact .inl rfl
  · obtain ⟨_, _, _, h3⟩ := C70_optin_fails num [] ⟨rfl, fun _ _ h => (by cases h), fun _ _ h => (by cases h)⟩ rfl true none
    exact h3 r hc hs

/-- the hypotheses are met -/
example : Torn sampleConf (sampleConf.take 1) ∧ collect num (sampleConf.take 1) = [] := ⟨.after 1, rfl⟩

end Setup
end Oro
