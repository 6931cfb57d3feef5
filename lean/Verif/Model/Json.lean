import Verif.Base.IMap
import Verif.Base.Str
/-
JSON values as `serde_json::Value` holds them with the `preserve_order` feature
(/repo/crates/oro-pretty-json/Cargo.toml:15), and the operations orogene uses on them.
`serde_json` is an external crate: these definitions state what its documentation says.
-/

set_option linter.unusedSectionVars false

namespace Oro

/-- `serde_json::Value`; numbers are kept as their text -/
inductive Json where
  | null
  | bool (b : Bool)
  | num (s : Str)
  | str (s : Str)
  | arr (l : List Json)
  | obj (m : List (Str × Json))

namespace IMap
variable {K V : Type} [DecidableEq K]

/-- `serde_json::Map::remove` with `preserve_order`: `IndexMap::swap_remove`, which moves the last entry into the gap -/
def swapRemove (m : IMap K V) (k : K) : IMap K V :=
  if m.contains k then
    match m.getLast? with
    | none => []
    | some l => if l.1 = k then m.dropLast else m.dropLast.map fun p => if p.1 = k then l else p
  else m

end IMap

namespace Json

/-- `Value::index(&str)`: `Null` if this is no object or has no such key -/
def index (v : Json) (k : Str) : Json :=
  match v with
  | .obj m => (IMap.get? m k).getD .null
  | _ => .null

/-- what `IndexMut` on a value starts from: `Null` becomes an empty object, anything but an object panics (`none`) -/
def asMap : Json → Option (IMap Str Json)
  | .obj m => some m
  | .null => some []
  | _ => none

/-- `value[a][b] = x` (`IndexMut`, twice); `none`: panic -/
def set2 (v : Json) (a b : Str) (x : Json) : Option Json :=
  v.asMap.bind fun m => (((IMap.get? m a).getD .null).asMap).map fun d =>
    .obj (IMap.insert m a (.obj (IMap.insert d b x)))

end Json
end Oro
