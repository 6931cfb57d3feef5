import Verif.Model.Auth
import Verif.Model.KdlConfig
/-
Model of /repo/src/lib.rs:512-585 (first-time setup), 601-610 (is telemetry on?) and 241-262 (the switches `first-time` and
`telemetry`, whose own flags are `--no-…` and which are on unless something switches them off: `ArgAction::SetFalse`).

Parsing and printing the configuration file (crate `kdl`) are not modelled, nor is creating its folder. A file that cannot be
read counts as empty (lib.rs:524-526).
-/

set_option linter.unusedSectionVars false

namespace Oro
namespace Setup
open Auth Config

/-- "telemetry", "first-time" -/
def kTelemetry : Str := ['t', 'e', 'l', 'e', 'm', 'e', 't', 'r', 'y']
@[inherit_doc kTelemetry] def kFirstTime : Str := ['f', 'i', 'r', 's', 't', '-', 't', 'i', 'm', 'e']

mutual
/-- a node and the nodes in it, at any depth -/
def nodesOf : KNode → List KNode
  | .mk n es ch => .mk n es ch :: nodesOpt ch
/-- the nodes in a block, at any depth -/
def nodesOpt : Option (List KNode) → List KNode
  | none => []
  | some l => nodesIn l
/-- the nodes of a document, at any depth -/
def nodesIn : List KNode → List KNode
  | [] => []
  | k :: l => nodesOf k ++ nodesIn l
end

/-- `KdlDocument::query("options > n")`: is there a node of the name directly in some options block? -/
def hasOption (n : Str) (d : KDoc) : Bool :=
  (nodesIn d).any fun k => k.name = kOptions && (k.children.getD []).any fun c => c.name = n

/-- lib.rs:548-552, 576-580: `get_mut(0)`: the first argument is replaced; if there is none, one is added -/
def setArg0 (v : KVal) : List (Option Str × KVal) → List (Option Str × KVal)
  | [] => [(none, v)]
  | (none, _) :: es => (none, v) :: es
  | (some p, w) :: es => (some p, w) :: setArg0 v es

/-- lib.rs:530-553, 557-581: record a boolean; `none`: the options have no block, and `unwrap` panics -/
def mark (found : Bool) (n : Str) (b : Bool) (d : KDoc) : Option KDoc :=
  let d := if found then d
    else updFirst kOptions (fun o => updChildren (fun l => l ++ [.mk n [(none, .bool b)] none]) (ensureChildren o)) d
  ((KDoc.get d kOptions).bind KNode.children).map fun _ =>
    updFirst kOptions (updChildren (updFirst n fun k => .mk k.name (setArg0 (.bool b) k.entries) k.children)) d

/-- lib.rs:527-581: the changes of the file; `answer`: what the user said, if there was someone to ask -/
def record (answer : Option Bool) (d : KDoc) : Option KDoc :=
  let d1 := if (KDoc.get d kOptions).isNone then d ++ [.mk kOptions [] none] else d
  let d2 := match answer with
    | none => some d1
    | some b => mark (hasOption kTelemetry d) kTelemetry b d1
  d2.bind fun d2 => mark (hasOption kFirstTime d2) kFirstTime false d2

/-- the configuration file of a user -/
inductive File where
  /-- no path is known for it -/
  | nowhere
  /-- it is no KDL -/
  | bad
  /-- its content; `[]` if it is not there -/
  | doc (d : KDoc)

/-- how the start of a command ends; `go`: is telemetry on, and what was written to the file -/
inductive Start where
  | go (telemetry : Bool) (written : Option KDoc)
  | error
  | panic

/-- lib.rs:512-585 `first_time_setup`. `firstTime`, `telemetry`: the switches; `answer`: what the user says if asked (`none`:
the dialogue fails) -/
def start (firstTime telemetry ci terminal : Bool) (answer : Option Bool) (file : File) : Start :=
  if firstTime && !ci then
    match file with
    | .nowhere => .go telemetry none
    | .bad => .error
    | .doc d =>
      if terminal then
        match answer with
        | none => .error
        | some b => match record (some b) d with
          | none => .panic
          | some d' => .go b (some d')
      else match record none d with
        | none => .panic
        | some d' => .go telemetry (some d')
  else .go telemetry none

/-- lib.rs:601-610, 655-657 `setup_telemetry`: are reports sent? `dsn`: is there an address for them? -/
def reports (dsn : Bool) : Start → Bool
  | .go t _ => t && dsn
  | _ => false

/-- lib.rs:241-262: the options -/
def firstTimeOpt : Opt := ⟨kFirstTime, false, true⟩
@[inherit_doc firstTimeOpt] def telemetryOpt : Opt := ⟨kTelemetry, false, true⟩

end Setup
end Oro
