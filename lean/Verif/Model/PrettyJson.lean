import Verif.Model.Json
/-
Model of /repo/crates/oro-pretty-json/src/lib.rs: reading the formatting of a JSON document, and writing a value in it.

`serde_json`'s pretty printer is external; it is modelled from its source's documented behaviour: two spaces for each
level, "\n" before every element and before the closing bracket, nothing inside empty containers, ": " after keys, the
short escapes for quote, backslash and the five named control characters and `\u00xx` for the other ones.
Numbers are kept as their texts.
-/

set_option linter.unusedSectionVars false

namespace Oro
namespace PJson

/-! ### serde_json -/

/-- a hexadecimal digit, in lower case -/
def hexDigit (n : Nat) : Char := if n < 10 then Char.ofNat (48 + n) else Char.ofNat (87 + n)

/-- how `serde_json` writes a character in a string -/
def escChar (c : Char) : Str :=
  if c = '"' then ['\\', '"']
  else if c = '\\' then ['\\', '\\']
  else if c = '\x08' then ['\\', 'b']
  else if c = '\t' then ['\\', 't']
  else if c = '\n' then ['\\', 'n']
  else if c = '\x0c' then ['\\', 'f']
  else if c = '\r' then ['\\', 'r']
  else if c.toNat < 32 then ['\\', 'u', '0', '0', hexDigit (c.toNat / 16), hexDigit (c.toNat % 16)]
  else [c]

/-- a string with its quotes -/
def quote (s : Str) : Str := '"' :: s.flatMap escChar ++ ['"']

/-- What a pretty printer emits: characters, and line breaks with the nesting level of the next line. -/
inductive Tok where
  | ch (c : Char)
  | nl (level : Nat)
  deriving DecidableEq

/-- plain text -/
def txt (s : Str) : List Tok := s.map .ch

/-- `true` and `false` -/
def boolText (b : Bool) : Str := if b then ['t', 'r', 'u', 'e'] else ['f', 'a', 'l', 's', 'e']

mutual
/-- `serde_json::to_string_pretty`, with line breaks and indentation left symbolic -/
def toks (n : Nat) : Json → List Tok
  | .null => txt ['n', 'u', 'l', 'l']
  | .bool b => txt (boolText b)
  | .num s => txt s
  | .str s => txt (quote s)
  | .arr [] => txt ['[', ']']
  | .arr (v :: l) => .ch '[' :: .nl (n + 1) :: toks (n + 1) v ++ elemToks (n + 1) l ++ [.nl n, .ch ']']
  | .obj [] => txt ['{', '}']
  | .obj (p :: l) => .ch '{' :: .nl (n + 1) :: memberToks (n + 1) p ++ membersToks (n + 1) l ++ [.nl n, .ch '}']
/-- the elements after the first one -/
def elemToks (n : Nat) : List Json → List Tok
  | [] => []
  | v :: l => .ch ',' :: .nl n :: toks n v ++ elemToks n l
/-- one member of an object -/
def memberToks (n : Nat) : Str × Json → List Tok
  | (k, v) => txt (quote k) ++ .ch ':' :: .ch ' ' :: toks n v
/-- the members after the first one -/
def membersToks (n : Nat) : List (Str × Json) → List Tok
  | [] => []
  | p :: l => .ch ',' :: .nl n :: memberToks n p ++ membersToks n l
end

/-- the text, for a line ending and an indentation unit -/
def flat (le ind : Str) (ts : List Tok) : Str :=
  ts.flatMap fun t => match t with
    | .ch c => [c]
    | .nl n => le ++ (List.replicate n ind).flatten

/-- `serde_json::to_string_pretty` -/
def serdePretty (v : Json) : Str := flat ['\n'] [' ', ' '] (toks 0 v)

/-! ### oro-pretty-json -/

/-- `str::lines`: split after each "\n"; the "\n" and one "\r" before it are dropped -/
def stripCr (l : Str) : Str := if l.getLast? = some '\r' then l.dropLast else l

/-- `str::lines`, with the current line so far -/
def linesFrom (cur : Str) : Str → List Str
  | [] => if cur = [] then [] else [cur]
  | c :: s => if c = '\n' then stripCr cur :: linesFrom [] s else linesFrom (cur ++ [c]) s

@[inherit_doc stripCr] def lines (s : Str) : List Str := linesFrom [] s

/-- lib.rs:88-90 `is_json_whitespace` -/
def isWs (c : Char) : Bool := c = ' ' || c = '\t' || c = '\r' || c = '\n'

/-- lib.rs:6-13 `Formatted` -/
structure Formatted where
  value : Json
  character : Char
  count : Nat
  lineEnd : Str
  trailing : Bool

/-- lib.rs:38: `line.find(|c| !is_json_whitespace(c)).unwrap_or(0)` -/
def indentChars (l : Str) : Nat := if l.all isWs then 0 else (l.takeWhile isWs).length

/-- lib.rs:38-44: one line, reindented -/
def reindent (f : Formatted) (l : Str) : Str :=
  List.replicate (f.count * (indentChars l / 2)) f.character ++ l.drop (indentChars l)

/-- lib.rs:32-45: the lines, joined -/
def joinLines (f : Formatted) : List Str → Str
  | [] => []
  | l :: ls => reindent f l ++ ls.flatMap fun l => f.lineEnd ++ reindent f l

/-- lib.rs:28-50 `to_string_pretty` -/
def toStringPretty (f : Formatted) : Str :=
  joinLines f (lines (serdePretty f.value)) ++ if f.trailing then f.lineEnd else []

/-- lib.rs:57-67: counting the indentation of a line; `none` if the line holds only whitespace, or does not begin with it -/
def lineIndent (last : Option Char) (n : Nat) : Str → Option (Char × Nat)
  | [] => none
  | c :: s => if isWs c then lineIndent (some c) (n + 1) s else last.map fun l => (l, n)

/-- lib.rs:52-70 `detect_indentation` -/
def detectIndentation (s : Str) : Option (Char × Nat) :=
  match lines s with
  | _ :: l :: _ => lineIndent none 0 l
  | _ => none

/-- lib.rs:72-86 `detect_line_end`: the first "\r" or "\n" -/
def firstBreak : Str → Option Str
  | [] => none
  | '\n' :: _ => some ['\n']
  | '\r' :: '\n' :: _ => some ['\r', '\n']
  | '\r' :: _ => some ['\r']
  | _ :: s => firstBreak s

/-- lib.rs:85: does the document end in a line break? -/
def endsInBreak (s : Str) : Bool := s.getLast? = some '\n' || s.getLast? = some '\r'

/-- lib.rs:72-86 `detect_line_end` -/
def detectLineEnd (s : Str) : Option (Str × Bool) := (firstBreak s).map fun e => (e, endsInBreak s)

/-- lib.rs:15-26 `from_str`, given what `serde_json` reads -/
def fromStr (parse : Str → Option Json) (s : Str) : Option Formatted :=
  (parse s).map fun v => ⟨v, ((detectIndentation s).getD (' ', 2)).1, ((detectIndentation s).getD (' ', 2)).2,
    ((detectLineEnd s).getD (['\n'], false)).1, ((detectLineEnd s).getD (['\n'], false)).2⟩

end PJson
end Oro
