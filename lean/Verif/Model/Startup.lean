import Verif.Base.Str
import Verif.Base.Sort
/-
Model of /repo/src/lib.rs:747-759 (finding the project), 773-783 (removing old logs) and 798-846 (reading option strings).
-/

set_option linter.unusedSectionVars false

namespace Oro
namespace Startup

/-! ### option strings -/

/-- how a parse ends: a value, an error message, or a panic (a slice whose end comes before its start) -/
inductive Outcome (α : Type) where
  | ok (a : α)
  | err
  | panic
  deriving DecidableEq

/-- `str::find` for one character: the position of the first occurrence. Positions are counted in characters, not bytes;
the separators are ASCII, so that the slices are the same. -/
def find (c : Char) : Str → Option Nat
  | [] => none
  | d :: s => if d = c then some 0 else (find c s).map (· + 1)

/-- `s[a..b]`: none when it panics -/
def slice (s : Str) (a b : Nat) : Option Str := if a ≤ b then some ((s.take b).drop a) else none

/-- lib.rs:798-812 `parse_key_value`; `parse`: how the value is read (`Url`); the key is any text -/
def keyValue {α : Type} (parse : Str → Option α) (s : Str) : Outcome (Str × α) :=
  match find '=' s with
  | none => .err
  | some pos =>
    match parse (s.drop (pos + 1)) with
    | none => .err
    | some v => .ok (s.take pos, v)

/-- lib.rs:814-846 `parse_nested_key_value` for text, text and text -/
def nested (s : Str) : Outcome (Str × Str × Str) :=
  match find '{' s with
  | none => .err
  | some o =>
    match find '}' s with
    | none => .err
    | some c =>
      match find '=' s with
      | none => .err
      | some e =>
        match slice s (o + 1) c with
        | none => .panic
        | some t =>
          match slice s (c + 1) e with
          | none => .panic
          | some k => .ok (t, k, s.drop (e + 1))

/-! ### logs -/

/-- an entry of the logs folder: its name, and whether `remove_file` can remove it (it is not a folder) -/
structure Entry where
  name : Str
  file : Bool
  deriving DecidableEq

/-- lib.rs:777-780: the loop, on the sorted entries; gives whether it succeeded and the entries that remain -/
def cleanLoop : List Entry → Bool × List Entry
  | [] => (true, [])
  | e :: l => if 5 ≤ (e :: l).length then (if e.file then cleanLoop l else (false, e :: l)) else (true, e :: l)

/-- lib.rs:773-783 `clean_old_logs`; none: the folder cannot be read. Entries of the folder come in any order. -/
def cleanOldLogs : Option (List Entry) → Bool × List Entry
  | none => (true, [])
  | some l => cleanLoop (sortBy (fun a b => strLe a.name b.name) l)

/-! ### the project -/

/-- what matters of a folder: has it a folder `node_modules`, has it a file `package.json` -/
structure Marks where
  modules : Bool
  manifest : Bool
  deriving DecidableEq

/-- lib.rs:747-759 `pkg_root`; folders are given by their components from the root, `Path::ancestors` is the folder, its parent, … -/
def pkgRoot (marks : List Str → Marks) : List Str → Option (List Str)
  | [] => if (marks []).modules || (marks []).manifest then some [] else none
  | c :: cs =>
    -- the reversed components: the head is the innermost
    if (marks (c :: cs)).modules || (marks (c :: cs)).manifest then some (c :: cs) else pkgRoot marks cs

end Startup
end Oro
