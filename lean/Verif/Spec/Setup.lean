import Verif.Model.Setup
import Verif.Spec.Config
/- Vocabulary for C70. -/
set_option linter.unusedSectionVars false
namespace Oro
namespace Setup
open Auth Config

/-- no options block but the first one at the top of the file -/
def OneBlock (d : KDoc) : Prop := (nodesIn d).filter (fun k => k.name = kOptions) = (KDoc.get d kOptions).toList

/-- at most one node for the option, with at most one argument -/
def OneNode (n : Str) (d : KDoc) : Prop := ∀ o oc, KDoc.get d kOptions = some o → o.children = some oc →
  oc.filter (fun s => s.name = n) = [] ∨
  ∃ k, oc.filter (fun s => s.name = n) = [k] ∧ (positional k.entries).length ≤ 1

/-- a configuration file in which both options can be recorded -/
structure Tidy (d : KDoc) : Prop where
  block : OneBlock d
  telemetry : OneNode kTelemetry d
  first : OneNode kFirstTime d

/-- a run of a command for which `file` is what the user's configuration file sets -/
structure Run (file : IMap Str CVal) where
  defaults : IMap Str CVal
  project : IMap Str CVal
  env : IMap Str CVal
  wf : defaults.WF ∧ project.WF ∧ env.WF
  opts : List Opt
  declared : Declared opts
  typed : Typed opts (load defaults file env project)
  first_mem : firstTimeOpt ∈ opts
  telemetry_mem : telemetryOpt ∈ opts
  cli : List Str
  cli_complete : complete (takesOf opts) cli = true
  order : List Opt
  order_perm : order.Perm opts
  ci : Bool
  terminal : Bool
  answer : Option Bool

namespace Run
variable {file : IMap Str CVal}

/-- the configuration -/
def cfg (r : Run file) : IMap Str CVal := load r.defaults file r.env r.project

/-- the switch of an option that is on unless something switches it off -/
def on (r : Run file) (o : Opt) : Bool := (switch r.opts (layered r.opts r.cfg r.order r.cli) o).getD true

/-- the command line says nothing of the option -/
def Quiet (r : Run file) (n : Str) : Prop :=
  (∀ e ∈ events (takesOf r.opts) r.cli, e.1 ≠ n ∧ e.1 ≠ neg n) ∧ dashes (neg n) ∉ r.cli

/-- neither does anything but the user's configuration file -/
def Silent (r : Run file) (n : Str) : Prop :=
  r.Quiet n ∧ r.defaults.get? n = none ∧ r.project.get? n = none ∧ r.env.get? n = none

/-- how the command starts -/
def starts (r : Run file) (f : File) : Start := start (r.on firstTimeOpt) (r.on telemetryOpt) r.ci r.terminal r.answer f

end Run
end Setup
end Oro
