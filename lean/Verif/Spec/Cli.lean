import Verif.Model.Cli
/- Vocabulary for C36 and C48. -/
set_option linter.unusedSectionVars false
namespace Oro
namespace Cli
variable {N L J C T : Type}

/-- Resolution gave `t`, and then installing it succeeded (or was not asked for), leaving `w'`. -/
def Succeeded (o : Opts) (st : Steps N L J C T) (mani : C) (w : World N L J) (t : T) (w' : World N L J) : Prop :=
  st.resolve mani o.locked w.lock (loadActual w.metaFile) w.nm = some t ∧
  ((o.lockfileOnly = true ∧ w' = looked w) ∨
   (o.lockfileOnly = false ∧ ∃ w1 w2, stepPrune st t (looked w) = (w1, true) ∧ stepExtract st t w1 = (w2, true) ∧
      rebuild o st t w2 = (w', true)))

/-- the entry of a package in a section of package.json -/
def entry (v : Json) (ty name : Str) : Option Json :=
  match v.index ty with
  | .obj d => IMap.get? d name
  | _ => none

/-- objects have each key once (they are maps) -/
def WFJson (v : Json) : Prop := ∀ m, v = .obj m → IMap.WF m ∧ ∀ k d, IMap.get? m k = some (.obj d) → IMap.WF d

/-- the sections of package.json that list dependencies, written out -/
def listed : List Str :=
  [['d','e','p','e','n','d','e','n','c','i','e','s'],
   ['d','e','v','D','e','p','e','n','d','e','n','c','i','e','s'],
   ['o','p','t','i','o','n','a','l','D','e','p','e','n','d','e','n','c','i','e','s'],
   ['p','e','e','r','D','e','p','e','n','d','e','n','c','i','e','s']]

/-- the section that `oro add` was asked to use: `--dev` before `--opt` -/
def wanted (dev opt : Bool) : Str :=
  if dev then ['d','e','v','D','e','p','e','n','d','e','n','c','i','e','s']
  else if opt then ['o','p','t','i','o','n','a','l','D','e','p','e','n','d','e','n','c','i','e','s']
  else ['d','e','p','e','n','d','e','n','c','i','e','s']

end Cli
end Oro
