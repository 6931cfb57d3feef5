import Verif.Model.Config
import Verif.Model.Lockfile
/-
Model of /repo/crates/oro-config/src/kdl_source.rs: configuration files as configuration values.

Parsing the text (crate `kdl`) is not modelled; a document is the tree it gives. `num`: how a number is printed. Hash maps
are association lists; of two entries for one key the later one stays.
-/

set_option linter.unusedSectionVars false

namespace Oro
namespace Config

/-- kdl_source.rs:43-56 `value_kind` -/
def valueKind (num : Int → Str) : KVal → CVal
  | .str s => .str s
  | .int i => .int i (num i)
  | .float z t => .float z t
  | .bool b => .bool b
  | .null => .nil

/-- `Iterator::collect` into a hash map -/
def ofPairs {α : Type} (l : List (Str × α)) : IMap Str α := l.foldl (fun m p => IMap.insert m p.1 p.2) []

/-- the positional arguments of a node -/
def positional (es : List (Option Str × KVal)) : List KVal := (es.filter fun e => e.1.isNone).map (·.2)

/-- the properties of a node -/
def properties (es : List (Option Str × KVal)) : List (Str × KVal) := es.filterMap fun e => e.1.map fun n => (n, e.2)

/-- the name of list items -/
def dash : Str := ['-']

mutual
/-- kdl_source.rs:66-134 `node_value` -/
def nodeValue (num : Int → Str) : KNode → CVal
  | .mk _ es ch =>
    match positional es with
    | [v] => valueKind num v
    | v :: w :: vs => .array ((v :: w :: vs).map (valueKind num))
    | [] =>
      if es ≠ [] then .table (ofPairs ((properties es).map fun p => (p.1, valueKind num p.2)))
      else blockValue num ch
/-- kdl_source.rs:101-133: a node without entries -/
def blockValue (num : Int → Str) : Option (List KNode) → CVal
  | none => .bool true
  | some l => if l.all fun k => k.name = dash then .array (nodeValues num l) else .table (ofPairs (nodePairs num l))
/-- kdl_source.rs:114: the values of some nodes -/
def nodeValues (num : Int → Str) : List KNode → List CVal
  | [] => []
  | k :: l => nodeValue num k :: nodeValues num l
/-- kdl_source.rs:123-128: the names and values of some nodes -/
def nodePairs (num : Int → Str) : List KNode → List (Str × CVal)
  | [] => []
  | k :: l => (k.name, nodeValue num k) :: nodePairs num l
end

/-- "options" -/
def optionsWord : Str := ['o', 'p', 't', 'i', 'o', 'n', 's']

/-- kdl_source.rs:12-22 `collect`: what a configuration file sets -/
def collect (num : Int → Str) (d : KDoc) : IMap Str CVal :=
  match KDoc.get d optionsWord with
  | none => []
  | some o =>
    match o.children with
    | none => []
    | some l => ofPairs (nodePairs num l)

end Config
end Oro
