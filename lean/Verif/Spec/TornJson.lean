import Verif.Spec.PrettyJson
/- Vocabulary for C103: what every JSON reader rejects. -/
set_option linter.unusedSectionVars false
namespace Oro
namespace PJson

/-- what a character outside of strings does to the number of open brackets -/
def weight (c : Char) : Int := if c = '{' ∨ c = '[' then 1 else if c = '}' ∨ c = ']' then -1 else 0

/-- Reading a text from front to end: where the reader is, and how many brackets are open. -/
def scan : Where × Int → Str → Where × Int
  | s, [] => s
  | (w, d), c :: t => scan (step w c, if w = .outside then d + weight c else d) t

/-- The text ends outside of strings, and as many brackets were closed as were opened. -/
def Closed (t : Str) : Prop := scan (.outside, 0) t = (.outside, 0)

/-- A JSON reader accepts neither the empty text nor one in which a string or a bracket is left open. -/
def Strict (parse : Str → Option Json) : Prop := ∀ t v, parse t = some v → t ≠ [] ∧ Closed t

end PJson
end Oro
