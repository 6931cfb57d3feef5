import Verif.Model.Config
/- Vocabulary for C40. -/
set_option linter.unusedSectionVars false
namespace Oro
namespace Config

/-- what a command line says of a switch: the last one of `--name` and `--no-name` counts -/
def switch (opts : List Opt) (args : List Str) (o : Opt) : Option Bool :=
  (lastMention o.name (events (takesOf opts) args)).map fun n => n = o.name

/-- the values a command line gives for an option: those after the last `--no-name` -/
def values (opts : List Opt) (args : List Str) (o : Opt) : List (Option Str) :=
  ((((events (takesOf opts) args).reverse.takeWhile fun e => e.1 ≠ neg o.name).filter fun e => e.1 = o.name).map Prod.snd).reverse

/-- the last argument is not an option waiting for its value -/
def complete (takes : Str → Bool) : List Str → Bool
  | [] => true
  | [a] => match longOf a with
    | some (l, none) => !takes l
    | _ => true
  | a :: b :: rest => match longOf a with
    | some (l, none) => if takes l then complete takes rest else complete takes (b :: rest)
    | _ => complete takes (b :: rest)

/-- sensible option declarations: different names, not empty, without `=`, none the negation of another -/
structure Declared (opts : List Opt) : Prop where
  names : (opts.map Opt.name).Nodup
  plain : ∀ o ∈ opts, o.name ≠ [] ∧ '=' ∉ o.name
  noneg : ∀ o ∈ opts, ∀ o' ∈ opts, o.name ≠ neg o'.name

/-- the configuration gives booleans to switches, and to options with values other things (that are not taken for
booleans), and no value that reads `--no-name` -/
structure Typed (opts : List Opt) (cfg : IMap Str CVal) : Prop where
  switches : ∀ o ∈ opts, o.takes = false → ∀ v, cfg.get? o.name = some v → ∃ b, asBool v = some b
  values : ∀ o ∈ opts, o.takes = true → ∀ v, cfg.get? o.name = some v → asBool v = none
  clean : ∀ o ∈ opts, o.takes = true → ∀ v, cfg.get? o.name = some v → ∀ o' ∈ opts, dashes (neg o'.name) ∉ pushes o.name v

/-- the values a configured value stands for -/
def valueArgs : CVal → List Str
  | .table l => l.flatMap fun p => match p with
    | (key, .table m) => m.map fun e => '{' :: key ++ '}' :: e.1 ++ '=' :: disp e.2
    | (key, v) => [key ++ '=' :: disp v]
  | .array l => l.filterMap asString
  | v => (asString v).toList

end Config
end Oro
