import Verif.Model.PrettyJson
/- Vocabulary for C41. -/
set_option linter.unusedSectionVars false
namespace Oro
namespace PJson

/-- the characters of JSON numbers -/
def numChar (c : Char) : Bool := ('0' ≤ c && c ≤ '9') || c = '-' || c = '+' || c = '.' || c = 'e' || c = 'E'

/-- a number's text: begins with a digit or a minus sign -/
def numText (s : Str) : Bool := s.all numChar && match s with | [] => false | c :: _ => ('0' ≤ c && c ≤ '9') || c = '-'

mutual
/-- all number texts in a value are such, and objects have each key once -/
def Ok : Json → Bool
  | .num s => numText s
  | .arr l => okList l
  | .obj l => decide (l.map Prod.fst).Nodup && okMembers l
  | _ => true
@[inherit_doc Ok] def okList : List Json → Bool
  | [] => true
  | v :: l => Ok v && okList l
@[inherit_doc Ok] def okMember : Str × Json → Bool
  | (_, v) => Ok v
@[inherit_doc Ok] def okMembers : List (Str × Json) → Bool
  | [] => true
  | p :: l => okMember p && okMembers l
end

mutual
/-- the JSON text of a value without any whitespace -/
def compact : Json → Str
  | .null => ['n', 'u', 'l', 'l']
  | .bool b => boolText b
  | .num s => s
  | .str s => quote s
  | .arr [] => ['[', ']']
  | .arr (v :: l) => '[' :: compact v ++ compactElems l ++ [']']
  | .obj [] => ['{', '}']
  | .obj (p :: l) => '{' :: compactMember p ++ compactMembers l ++ ['}']
@[inherit_doc compact] def compactElems : List Json → Str
  | [] => []
  | v :: l => ',' :: compact v ++ compactElems l
@[inherit_doc compact] def compactMember : Str × Json → Str
  | (k, v) => quote k ++ ':' :: compact v
@[inherit_doc compact] def compactMembers : List (Str × Json) → Str
  | [] => []
  | p :: l => ',' :: compactMember p ++ compactMembers l
end

/-- where a reader of JSON text is -/
inductive Where where
  | outside
  | inString
  | afterBackslash
  deriving DecidableEq

/-- one character on -/
def step : Where → Char → Where
  | .outside, c => if c = '"' then .inString else .outside
  | .inString, c => if c = '"' then .outside else if c = '\\' then .afterBackslash else .inString
  | .afterBackslash, _ => .inString

/-- JSON text without the whitespace outside of strings -/
def strip (w : Where) : Str → Str
  | [] => []
  | c :: s => if w = .outside ∧ isWs c then strip w s else c :: strip (step w c) s

/-- The text is a JSON text of the value: without the whitespace outside of its strings it is the value's compact text.
(JSON texts with other escapes, or with numbers written differently from how they are printed, are left out.) -/
def Denotes (t : Str) (v : Json) : Prop := strip .outside t = compact v

/-- A JSON reader reads such texts correctly. -/
def Reads (parse : Str → Option Json) : Prop := ∀ t v, Ok v = true → Denotes t v → parse t = some v

/-- The document holds the value in a uniform style. -/
def styled (c : Char) (n : Nat) (le : Str) (trailing : Bool) (v : Json) : Str :=
  flat le (List.replicate n c) (toks 0 v) ++ if trailing then le else []

end PJson
end Oro

