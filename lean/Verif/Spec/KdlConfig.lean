import Verif.Model.KdlConfig
/- Vocabulary for C64: what a node of a configuration file means. -/
set_option linter.unusedSectionVars false
namespace Oro
namespace Config

/-- a value as written and as configured -/
inductive SameValue (num : Int → Str) : KVal → CVal → Prop
  | str {s : Str} : SameValue num (.str s) (.str s)
  | int {i : Int} : SameValue num (.int i) (.int i (num i))
  | float {z : Bool} {t : Str} : SameValue num (.float z t) (.float z t)
  | bool {b : Bool} : SameValue num (.bool b) (.bool b)
  | null : SameValue num .null .nil

mutual
/-- Nodes that are either flags, values, lists, tables in one line, lists in a block or tables in a block, and what they
mean. -/
inductive Means (num : Int → Str) : KNode → CVal → Prop
  /-- `name` -/
  | flag {n : Str} : Means num (.mk n [] none) (.bool true)
  /-- `name 1` -/
  | value {n : Str} {v : KVal} {w : CVal} : SameValue num v w → Means num (.mk n [(none, v)] none) w
  /-- `name 1 2 3` -/
  | list {n : Str} {vs : List KVal} {ws : List CVal} : 2 ≤ vs.length → List.Forall₂ (SameValue num) vs ws →
      Means num (.mk n (vs.map fun v => (none, v)) none) (.array ws)
  /-- `name a=1 b=2` -/
  | props {n : Str} {ks : List Str} {vs : List KVal} {ws : List CVal} : ks ≠ [] → ks.Nodup → ks.length = vs.length →
      List.Forall₂ (SameValue num) vs ws → Means num (.mk n ((ks.zip vs).map fun p => (some p.1, p.2)) none) (.table (ks.zip ws))
  /-- `name { - 1; - 2 }` -/
  | items {n : Str} {l : List KNode} {ws : List CVal} : (∀ k ∈ l, k.name = ['-']) → MeanAll num l ws →
      Means num (.mk n [] (some l)) (.array ws)
  /-- `name { a 1; b 2 }` -/
  | block {n : Str} {l : List KNode} {ws : List CVal} : l ≠ [] → (l.map KNode.name).Nodup → (∀ k ∈ l, k.name ≠ ['-']) →
      MeanAll num l ws → Means num (.mk n [] (some l)) (.table ((l.map KNode.name).zip ws))
/-- node by node -/
inductive MeanAll (num : Int → Str) : List KNode → List CVal → Prop
  | nil : MeanAll num [] []
  | cons {k : KNode} {l : List KNode} {w : CVal} {ws : List CVal} : Means num k w → MeanAll num l ws → MeanAll num (k :: l) (w :: ws)
end

end Config
end Oro
