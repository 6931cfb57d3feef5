import Verif.Base.Str
/-
Model of /repo/crates/oro-shim-bin/src/lib.rs:27-33 (the two regular expressions), 42-47 (reading a script's header) and
255-341 (turning its assignments into commands). The texts around these (the three shim files) are not modelled.

The regular expressions are written as backtracking matchers with the preferences of the `regex` crate (greedy, leftmost
first); `\s` is the ASCII white space. The header is one line without its end (`trim_end`).
-/

set_option linter.unusedSectionVars false

namespace Oro
namespace Shim

variable {α : Type}

/-- `\s` -/
def space (c : Char) : Bool := c = ' ' || c = '\t' || c = '\n' || c = '\r' || c = '\x0b' || c = '\x0c'
/-- `[^ \t]` -/
def solid (c : Char) : Bool := c ≠ ' ' && c ≠ '\t'
/-- `[^ \t=]` -/
def keyChar (c : Char) : Bool := c ≠ ' ' && c ≠ '\t' && c ≠ '='

/-- `p*`, greedy: as much as possible first; `k` is told what was matched and what remains -/
def star (p : Char → Bool) (k : Str → Str → Option α) : Str → Str → Option α
  | acc, [] => k acc []
  | acc, c :: t => if p c then (star p k (acc ++ [c]) t).or (k acc (c :: t)) else k acc (c :: t)

/-- `p+` -/
def plus (p : Char → Bool) (k : Str → Str → Option α) (s : Str) : Option α :=
  star p (fun a r => if a = [] then none else k a r) [] s

/-- a literal -/
def lit (t : Str) (k : Str → Option α) (s : Str) : Option α := if t.isPrefixOf s then k (s.drop t.length) else none

/-- `(?:[^ \t=]+=[^ \t=]+\s+)*`; `n` bounds the number of repetitions (the length of the text is enough) -/
def assigns (k : Str → Str → Option α) : Nat → Str → Str → Option α
  | 0, acc, s => k acc s
  | n + 1, acc, s =>
    (plus keyChar (fun a r => lit ['='] (plus keyChar fun b r => plus space (fun w r => assigns k n (acc ++ a ++ '=' :: b ++ w) r) r) r) s).or
      (k acc s)

/-- "/usr/bin/env" -/
def kEnv : Str := ['/', 'u', 's', 'r', '/', 'b', 'i', 'n', '/', 'e', 'n', 'v']
/-- "-S" -/
def kS : Str := ['-', 'S']

/-- lib.rs:28: `/usr/bin/env\s+(?:-S\s+)?(?P<vars>…)` -/
def envPart (k : Str → Str → Option α) (s : Str) : Option α :=
  lit kEnv (plus space fun _ r =>
    (lit kS (plus space fun _ r => assigns k r.length [] r) r).or (assigns k r.length [] r)) s

/-- what a header says -/
structure Header where
  vars : Option Str
  prog : Str
  args : Str
  deriving DecidableEq

/-- lib.rs:28: `(?P<prog>[^ \t]+)(?P<args>.*)$` -/
def progArgs (vars : Option Str) : Str → Option Header := plus solid fun p r => some ⟨vars, p, r⟩

/-- lib.rs:27-30 `SHEBANG_REGEX` on the first line -/
def header : Str → Option Header :=
  lit ['#', '!'] fun r => star space (fun _ r => (envPart (fun v r => progArgs (some v) r) r).or (progArgs none r)) [] r

/-! ### references to variables -/

/-- `[^$@#?\- \t{}:]` -/
def varChar (c : Char) : Bool :=
  c ≠ '$' && c ≠ '@' && c ≠ '#' && c ≠ '?' && c ≠ '-' && c ≠ ' ' && c ≠ '\t' && c ≠ '{' && c ≠ '}' && c ≠ ':'

/-- without an opening brace at the front -/
def dropOpen : Str → Str
  | '{' :: s => s
  | s => s
/-- without a closing brace at the front -/
def dropClose : Str → Str
  | '}' :: s => s
  | s => s

/-- lib.rs:32-33 `DOLLAR_EXPR_REGEX` at the front of what follows a `$`: the variable and what remains -/
def reference (s : Str) : Option (Str × Str) :=
  match (dropOpen s).takeWhile varChar with
  | [] => none
  | v => some (v, dropClose ((dropOpen s).dropWhile varChar))

/-- lib.rs:277-292, 331-346: every match replaced by `f` of the variable, the rest copied; `n`: at least the length of the text -/
def rewrite (f : Str → Str) : Nat → Str → Str
  | 0, s => s
  | _ + 1, [] => []
  | n + 1, c :: s =>
    if c = '$' then
      match reference s with
      | some (v, r) => f v ++ rewrite f n r
      | none => c :: rewrite f n s
    else c :: rewrite f n s

/-- lib.rs:277-292 `replace_dollar_with_percent_pair` -/
def percent (s : Str) : Str := rewrite (fun v => '%' :: v ++ ['%']) s.length s

/-- lib.rs:331-346 `replace_with_string_interpolation`, without the last step (quotes) -/
def interpolate (s : Str) : Str := rewrite (fun v => ['$', '{', 'e', 'n', 'v', ':'] ++ v ++ ['}']) s.length s

/-- lib.rs:346 `replace('"', "`\"")` -/
def quotes (s : Str) : Str := s.flatMap fun c => if c = '"' then ['`', '"'] else [c]

/-! ### assignments -/

/-- `str::split_whitespace`: the words; `cur`: the word being read -/
def words : Str → Str → List Str
  | cur, [] => if cur = [] then [] else [cur]
  | cur, c :: s => if space c then (if cur = [] then words [] s else cur :: words [] s) else words (cur ++ [c]) s

/-- lib.rs:266-275: `@SET key=value` -/
def setCommand (key value : Str) : Str :=
  if key = [] ∨ value = [] then [] else ['@', 'S', 'E', 'T', ' '] ++ key ++ '=' :: percent value ++ ['\r', '\n']

/-- lib.rs:315-326: `$env:key="value"` -/
def envCommand (key value : Str) : Str :=
  if key = [] ∨ value = [] then [] else ['$', 'e', 'n', 'v', ':'] ++ key ++ ['=', '"'] ++ quotes (interpolate value) ++ ['"', '\n']

/-- lib.rs:258-262, 305-309: `splitn(2, '=')`, for words (which have no white space to trim) -/
def command (f : Str → Str → Str) (w : Str) : Str :=
  if '=' ∈ w then f (w.takeWhile (· ≠ '=')) ((w.dropWhile (· ≠ '=')).drop 1) else []

/-- lib.rs:255-264 `convert_to_set_commands` -/
def setCommands (vars : Str) : Str := (words [] vars).flatMap (command setCommand)
/-- lib.rs:302-311 `convert_to_env_commands` -/
def envCommands (vars : Str) : Str := (words [] vars).flatMap (command envCommand)

end Shim
end Oro
