import Verif.Model.Ping
import Verif.Props.Requests
import Verif.Props.Npm
/- C84: `oro ping`. -/

set_option linter.unusedSectionVars false

namespace Oro
namespace Ping
open Auth Npm

/-- **C84**: the registry's own address for this purpose is asked, with its credentials – for registries whose address ends
with a slash. -/
theorem C84_asks_partial (b64 : Str → Str) (creds : IMap Str Cred) (registry : Url) (pre : Str) (hp : registry.path = pre ++ ['/']) :
    (request registry).url = { registry with path := registry.path ++ ['-', '/', 'p', 'i', 'n', 'g'],
                                             rest := ['?', 'w', 'r', 'i', 't', 'e', '=', 't', 'r', 'u', 'e'] } ∧
    ∀ c, creds.get? (nerf registry) = some c → ∃ h, sent b64 creds (request registry) = some h ∧ Says b64 c h := by
  have hu : upToSlash registry.path = registry.path := by
    rw [hp]
    have := upToSlash_append pre [] (by simp)
    simpa using this
  refine ⟨by unfold request; rw [hu]; rfl, fun c hc => ⟨headerOf b64 c, ?_, headerOf_says b64 c⟩⟩
  unfold sent attached request
  rw [if_pos, hc]
  · rfl
  · unfold inside
    simp only [hu, decide_true, Bool.true_and]
    rw [List.isPrefixOf_iff_prefix]
    exact List.prefix_append _ _

/-- **C84 fails** for registries whose address does not end with a slash: the last part of the address plays no role. The
command asks, and reports on, what is above; two such registries can not be told apart. -/
theorem C84_slash_fails (registry : Url) (pre last last' : Str) (hp : registry.path = pre ++ '/' :: last) (hl : '/' ∉ last)
    (hl' : '/' ∉ last') (r' : Str) :
    (request registry).url.path = pre ++ ['/', '-', '/', 'p', 'i', 'n', 'g'] ∧
    (request { registry with path := pre ++ '/' :: last', rest := r' }).url = (request registry).url := by
  constructor
  · unfold request
    simp only
    rw [hp, upToSlash_append pre last hl]
    simp [kPing]
  · unfold request
    simp only
    rw [hp, upToSlash_append pre last hl, upToSlash_append pre last' hl']

/-- **C84**: without `--json` the command succeeds exactly if the registry answers. -/
theorem C84_answers (server : Request → Option Str) (parse : Str → Option Json) (text : Url → Str) (time : Str) (registry : Url) :
    ping server parse text time false registry ≠ none ↔ ∃ answer, server (request registry) = some answer := by
  unfold ping
  cases server (request registry) <;> simp

/-- **C84**: with `--json` it prints the registry, the time and the answer as they are; it then also fails when the answer is
not JSON. -/
theorem C84_json_partial (server : Request → Option Str) (parse : Str → Option Json) (text : Url → Str) (time : Str) (registry : Url)
    (out : List (Str × Json)) : ping server parse text time true registry = some (some out) ↔
      ∃ answer details, server (request registry) = some answer ∧ parse answer = some details ∧
        out = [(['r', 'e', 'g', 'i', 's', 't', 'r', 'y'], .str (text registry)), (['t', 'i', 'm', 'e'], .num time),
          (['d', 'e', 't', 'a', 'i', 'l', 's'], details)] := by
  unfold ping
  cases h : server (request registry) with
  | none => simp
  | some a =>
    simp only [if_true]
    cases hp : parse a with
    | none => simp [hp]
    | some d =>
      simp only [Option.some.injEq, hp, exists_and_left, exists_eq_left']
      exact eq_comm

/-- **C84 fails** with `--json` for a registry that answers with plain text ("ok"): without the option it is reported to be
there, with it the command fails. -/
theorem C84_plain_fails (server : Request → Option Str) (parse : Str → Option Json) (text : Url → Str) (time : Str) (registry : Url)
    (answer : Str) (h : server (request registry) = some answer) (hp : parse answer = none) :
    ping server parse text time false registry ≠ none ∧ ping server parse text time true registry = none := by
  unfold ping
  rw [h]
  simp [hp]

/-- a registry with credentials, and one without a final slash -/
example : (request ⟨['h'], some ['r'], none, ['/', 'n', '/'], []⟩).url.path = ['/', 'n', '/', '-', '/', 'p', 'i', 'n', 'g'] ∧
    (sent id [(nerf ⟨['h'], some ['r'], none, ['/', 'n', '/'], []⟩, .token ['t'])] (request ⟨['h'], some ['r'], none, ['/', 'n', '/'], []⟩)).isSome = true ∧
    (request ⟨['h'], some ['r'], none, ['/', 'n'], []⟩).url.path = ['/', '-', '/', 'p', 'i', 'n', 'g'] := by decide +kernel

end Ping
end Oro
