import Verif.Proofs.PrettyJson
/-
C41: editing package.json keeps its formatting.
-/
set_option linter.unusedSectionVars false
namespace Oro
namespace PJson

/-- C41: whatever value is written, in whatever style, the text is the value in that style, uniformly. -/
theorem C41_written (f : Formatted) (hv : Ok f.value = true) :
    toStringPretty f = styled f.character f.count f.lineEnd f.trailing f.value := toStringPretty_eq f hv

/-- C41: the text written is a JSON text of the value and of no other one (if the indentation is whitespace, as it is
for everything that was read). -/
theorem C41_value (f : Formatted) (hv : Ok f.value = true) (hc : isWs f.character = true)
    (hl : ∀ c ∈ f.lineEnd, isWs c = true) :
    Denotes (toStringPretty f) f.value ∧ ∀ w, Ok w = true → Denotes (toStringPretty f) w → w = f.value := by
  have hd : Denotes (toStringPretty f) f.value := by
    unfold Denotes
    rw [toStringPretty_eq f hv, styled, strip_toks (le := f.lineEnd) (ind := List.replicate f.count f.character) hl (fun c h => by
      rw [List.eq_of_mem_replicate h]; exact hc) 0 _ _ hv]
    have : strip .outside (if f.trailing = true then f.lineEnd else []) = [] := by
      split
      · have := strip_ws hl []
        rwa [List.append_nil] at this
      · rfl
    rw [this, List.append_nil]
  exact ⟨hd, fun w hw h => denotes_unique hw hv h hd⟩

theorem lineIndent_ws (s : Str) : ∀ (o : Option Char) (n : Nat) (c : Char) (k : Nat), (∀ d, o = some d → isWs d = true) →
    lineIndent o n s = some (c, k) → isWs c = true := by
  induction s with
  | nil => intro o n c k _ h; simp [lineIndent] at h
  | cons d s ih =>
    intro o n c k ho h
    rw [lineIndent] at h
    split at h
    · rename_i hd
      exact ih (some d) (n + 1) c k (fun e he => by cases he; exact hd) h
    · cases o with
      | none => simp at h
      | some l => simp only [Option.map_some, Option.some.injEq, Prod.mk.injEq] at h; rw [← h.1]; exact ho l rfl

theorem firstBreak_ws (s le : Str) (h : firstBreak s = some le) : ∀ c ∈ le, isWs c = true := by
  fun_induction firstBreak s with
  | case1 => simp at h
  | case2 => cases h; decide
  | case3 => cases h; decide
  | case4 => cases h; decide
  | case5 _ _ _ _ _ ih => exact ih h

/-- C41: the indentation and line ending found in any document are whitespace, so reading any document, changing its
value to any other and writing it gives a text of the new value. -/
theorem C41_edit (parse : Str → Option Json) (t : Str) (f : Formatted) (h : fromStr parse t = some f) (v : Json) (hv : Ok v = true) :
    Denotes (toStringPretty { f with value := v }) v := by
  unfold fromStr at h
  obtain ⟨v0, _, rfl⟩ := Option.map_eq_some_iff.1 h
  refine (C41_value _ hv ?_ ?_).1
  · dsimp only
    cases hd : detectIndentation t with
    | none => decide
    | some p =>
      unfold detectIndentation at hd
      split at hd
      · exact lineIndent_ws _ none 0 p.1 p.2 (fun _ h => (by cases h)) hd
      · cases hd
  · dsimp only
    cases hd : detectLineEnd t with
    | none => decide
    | some p =>
      unfold detectLineEnd at hd
      obtain ⟨e, he, rfl⟩ := Option.map_eq_some_iff.1 hd
      exact firstBreak_ws t e he

/-- C41: for a document in a uniform style — any value, at least one space or tab for each level, the line ending "\n"
or "\r\n", with or without one at the end — the style is recognised: changing the value and writing gives the document
of the new value in that style, and writing the value unchanged gives the document itself.
The document of a value without line breaks (a scalar or an empty container) shows no indentation, so the new value then
is written with two spaces. -/
theorem C41_style (parse : Str → Option Json) (hp : Reads parse) (v : Json) (hv : Ok v = true) (c : Char) (hc : c = ' ' ∨ c = '\t')
    (n : Nat) (hn : 0 < n) (le : Str) (hle : Usual le) (tr : Bool) :
    ∃ f, fromStr parse (styled c n le tr v) = some f ∧ f.value = v ∧ toStringPretty f = styled c n le tr v ∧
      (Filled v → ∀ w, Ok w = true → toStringPretty { f with value := w } = styled c n le tr w) := by
  have hws : isWs c = true ∧ c ≠ '\n' := by rcases hc with rfl | rfl <;> decide
  have hlw : ∀ d ∈ le, isWs d = true := by rcases hle with rfl | rfl <;> decide
  have hpv : parse (styled c n le tr v) = some v := by
    refine hp _ _ hv ?_
    have := (C41_value ⟨v, c, n, le, tr⟩ hv hws.1 hlw).1
    rwa [toStringPretty_eq _ hv] at this
  refine ⟨_, by unfold fromStr; rw [hpv]; rfl, rfl, ?_⟩
  by_cases hf : Filled v
  · obtain ⟨h1, h2⟩ := detect_filled hv hf hws.1 hws.2 hn hle tr
    constructor
    · rw [toStringPretty_eq _ hv, h1, h2]; rfl
    · intro _ w hw
      rw [toStringPretty_eq _ hw, h1, h2]; rfl
  · refine ⟨?_, fun h => absurd h hf⟩
    rw [toStringPretty_eq _ hv, detect_flat hv hf c n hle tr]
    obtain ⟨s, z, h1, _⟩ := toks_flat hv hf
    dsimp only
    unfold styled
    rw [h1, flat_txt, flat_txt]
    cases tr <;> rfl

/-- a reader as required exists, so the theorem is not about nothing -/
theorem C41_reader_exists : ∃ parse, Reads parse := reads_exists

/-- the object {"a":1} -/
def sample : Json := .obj [(['a'], .num ['1'])]

/-- C41 fails for documents without indentation: two spaces are introduced. -/
theorem C41_zero_fails (parse : Str → Option Json) (hp : Reads parse) :
    ∃ f, fromStr parse (styled ' ' 0 ['\n'] false sample) = some f ∧ toStringPretty f = styled ' ' 2 ['\n'] false sample ∧
      toStringPretty f ≠ styled ' ' 0 ['\n'] false sample := by
  have : parse (styled ' ' 0 ['\n'] false sample) = some sample := hp _ _ (by decide) (by unfold Denotes; decide)
  refine ⟨_, by unfold fromStr; rw [this]; rfl, by decide +kernel, by decide +kernel⟩

/-- C41 fails for documents whose lines end in "\r": their indentation is not seen (the line ends themselves are kept, with or without
one at the end). -/
theorem C41_cr_fails (parse : Str → Option Json) (hp : Reads parse) (tr : Bool) :
    ∃ f, fromStr parse (styled '\t' 1 ['\r'] tr sample) = some f ∧ toStringPretty f = styled ' ' 2 ['\r'] tr sample ∧
      toStringPretty f ≠ styled '\t' 1 ['\r'] tr sample := by
  have : parse (styled '\t' 1 ['\r'] tr sample) = some sample := hp _ _ (by decide) (by unfold Denotes; cases tr <;> decide)
  refine ⟨_, by unfold fromStr; rw [this]; rfl, ?_, ?_⟩
  · cases tr <;> decide +kernel
  · cases tr <;> decide +kernel

/-- C41 fails for documents in one line: they are broken into lines. -/
theorem C41_compact_fails (parse : Str → Option Json) (hp : Reads parse) :
    ∃ f, fromStr parse (compact sample) = some f ∧ toStringPretty f = styled ' ' 2 ['\n'] false sample ∧
      toStringPretty f ≠ compact sample := by
  have : parse (compact sample) = some sample := hp _ _ (by decide) (by unfold Denotes; decide)
  refine ⟨_, by unfold fromStr; rw [this]; rfl, by decide +kernel, by decide +kernel⟩

/-- the documents of the theorems look as they should -/
example : styled '\t' 1 ['\r', '\n'] true sample =
    ['{', '\r', '\n', '\t', '"', 'a', '"', ':', ' ', '1', '\r', '\n', '}', '\r', '\n'] := by decide +kernel

end PJson
end Oro
