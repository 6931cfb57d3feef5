import Verif.Base.IMap
import Verif.Base.Str
/-
Model of /repo/crates/oro-config/src/lib.rs: negated options (22-52), configuration values as extra command line
arguments (54-110) and the layers of configuration (164-181).

External crates, as documented: `config` 0.13 (merging of sources, conversions of values) and `clap` (options are
recognised by `--name`, `--name value` and `--name=value`; of an option and its negation the last one counts).
Simplifications: one command (the fake parse of lib.rs:61-64 is taken to see the arguments it is given); option ids are
written with dashes (lib.rs:71 replaces the underscores); configuration keys of the form `no-…` are not looked at.
-/

set_option linter.unusedSectionVars false

namespace Oro
namespace Config

/-- `config::Value` -/
inductive CVal where
  | nil
  | bool (b : Bool)
  | int (i : Int) (text : Str)
  | float (nonzero : Bool) (text : Str)
  | str (s : Str)
  | array (l : List CVal)
  | table (l : List (Str × CVal))

/-! ### layers -/

/-- the table a value is merged into: anything that is no table is replaced by an empty one -/
def tableOf : Option CVal → IMap Str CVal
  | some (.table l) => l
  | _ => []

mutual
/-- `config::path::Expression::set` for one key: tables are merged, everything else is replaced -/
def setKey (root : IMap Str CVal) (k : Str) : CVal → IMap Str CVal
  | .table [] => if (root.get? k).isSome then root else root.insert k (.table [])
  | .table (p :: l) => root.insert k (.table (setAll (setMember (tableOf (root.get? k)) p) l))
  | v => root.insert k v
/-- one entry of a table -/
def setMember (root : IMap Str CVal) : Str × CVal → IMap Str CVal
  | (k, v) => setKey root k v
/-- all entries of a table -/
def setAll (root : IMap Str CVal) : List (Str × CVal) → IMap Str CVal
  | [] => root
  | p :: l => setAll (setMember root p) l
end

/-- lib.rs:164-181 `load`: the sources, each over the ones before it -/
def load (defaults globalFile env project : IMap Str CVal) : IMap Str CVal :=
  setAll (setAll (setAll (setAll [] defaults) globalFile) env) project

/-- lower case, for ASCII letters -/
def lower (s : Str) : Str := s.map Char.toLower

/-- `config::Environment::with_prefix("oro_config")`: the variable's name without the prefix and in lower case -/
def envKey (name : Str) : Option Str :=
  if ['o', 'r', 'o', '_', 'c', 'o', 'n', 'f', 'i', 'g', '_'].isPrefixOf (lower name) then some ((lower name).drop 11) else none

/-- the environment as a source -/
def envSource (vars : List (Str × Str)) : IMap Str CVal :=
  vars.foldl (fun m v => match envKey v.1 with
    | none => m
    | some k => IMap.insert m k (.str v.2)) []

/-! ### conversions (`config::Value::into_*`) -/

/-- the strings that count as booleans, in lower case -/
def yesWords : List Str := [['1'], ['t', 'r', 'u', 'e'], ['o', 'n'], ['y', 'e', 's']]
@[inherit_doc yesWords] def noWords : List Str := [['0'], ['f', 'a', 'l', 's', 'e'], ['o', 'f', 'f'], ['n', 'o']]

/-- `into_bool` -/
def asBool : CVal → Option Bool
  | .bool b => some b
  | .int i _ => some (i ≠ 0)
  | .float z _ => some z
  | .str s => if lower s ∈ yesWords then some true else if lower s ∈ noWords then some false else none
  | _ => none

/-- "true", "false" -/
def boolStr (b : Bool) : Str := if b then ['t', 'r', 'u', 'e'] else ['f', 'a', 'l', 's', 'e']

/-- `into_string` -/
def asString : CVal → Option Str
  | .str s => some s
  | .bool b => some (boolStr b)
  | .int _ t => some t
  | .float _ t => some t
  | _ => none

/-- `Display`, for values that are no tables or arrays -/
def disp (v : CVal) : Str := (asString v).getD []

/-! ### configuration as arguments -/

/-- `--name` -/
def dashes (n : Str) : Str := '-' :: '-' :: n
/-- `no-name` -/
def neg (n : Str) : Str := 'n' :: 'o' :: '-' :: n

/-- lib.rs:82-97: the arguments for one entry of a table -/
def tableArgs (name : Str) : Str × CVal → List Str
  | (key, .table m) => m.flatMap fun e => [dashes name, '{' :: key ++ '}' :: e.1 ++ '=' :: disp e.2]
  | (key, v) => [dashes name, key ++ '=' :: disp v]

/-- lib.rs:100-105: the arguments for one element of an array -/
def arrayArgs (name : Str) (v : CVal) : List Str :=
  match asString v with
  | some s => [dashes name, s]
  | none => []

/-- lib.rs:73-107: the arguments for a configured value -/
def pushes (name : Str) (v : CVal) : List Str :=
  match asBool v with
  | some true => [dashes name]
  | some false => [dashes (neg name)]
  | none =>
    match asString v with
    | some s => [dashes name, s]
    | none =>
      match v with
      | .table l => l.flatMap (tableArgs name)
      | .array l => l.flatMap (arrayArgs name)
      | _ => []

/-- An option as it is declared. `reversed`: its own flag is `--no-name` and switches off (`long = "no-name"`,
`SetFalse`), and lib.rs:33-43 adds `--name`; otherwise its own flag is `--name`, and `--no-name` is added. -/
structure Opt where
  name : Str
  takes : Bool
  reversed : Bool
  deriving DecidableEq

/-! ### clap -/

/-- the name and the value in `--name` or `--name=value` -/
def longOf : Str → Option (Str × Option Str)
  | '-' :: '-' :: s => if s = [] then none else
      if '=' ∈ s then some (s.takeWhile (· ≠ '='), some (s.dropWhile (· ≠ '=')).tail) else some (s, none)
  | _ => none

/-- the options on a command line, in order, with their values -/
def events (takes : Str → Bool) : List Str → List (Str × Option Str)
  | [] => []
  | [a] => match longOf a with
    | none => []
    | some l => [l]
  | a :: b :: rest => match longOf a with
    | none => events takes (b :: rest)
    | some (l, some v) => (l, some v) :: events takes (b :: rest)
    | some (l, none) => if takes l then (l, some b) :: events takes rest else (l, none) :: events takes (b :: rest)

/-- the last mention of an option or its negation -/
def lastMention (name : Str) (ev : List (Str × Option Str)) : Option Str :=
  (ev.reverse.find? fun e => e.1 = name || e.1 = neg name).map Prod.fst

/-- which names are followed by a value -/
def takesOf (opts : List Opt) (l : Str) : Bool := opts.any fun o => o.takes && o.name = l

/-- lib.rs:70: `value_source(id) == CommandLine`: the option's own flag was used, and not its negation after it -/
def given (opts : List Opt) (args : List Str) (o : Opt) : Bool :=
  lastMention o.name (events (takesOf opts) args) = some (if o.reversed then neg o.name else o.name)

/-- lib.rs:65-108: one option -/
def layerOne (opts : List Opt) (cfg : IMap Str CVal) (cli : List Str) (args : List Str) (o : Opt) : List Str :=
  if given opts cli o then args
  else if dashes (neg o.name) ∈ args then args
  else match cfg.get? o.name with
    | none => args
    | some v => args ++ pushes o.name v

/-- lib.rs:54-110 `layered_args`; `order`: the order in which the hash set gives the options -/
def layered (opts : List Opt) (cfg : IMap Str CVal) (order : List Opt) (cli : List Str) : List Str :=
  order.foldl (layerOne opts cfg cli) cli

end Config
end Oro
