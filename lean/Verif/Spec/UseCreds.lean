import Verif.Model.UseCreds
import Verif.Spec.Auth
import Verif.Spec.Config
/- Vocabulary for C65. -/
set_option linter.unusedSectionVars false
namespace Oro
namespace Auth

/-- an address without closing braces and equal signs -/
def Address (s : Str) : Prop := '}' ∉ s ∧ '=' ∉ s

/-- a registry's node as `oro login` writes it: at least one property, all of them text -/
structure AuthNode (k : KNode) : Prop where
  nonempty : k.entries ≠ []
  text : ∀ e ∈ k.entries, ∃ key v, e = (some key, KVal.str v) ∧ '=' ∉ key

/-- a configuration file with at most one auth section, which has nothing but a block with registries' nodes -/
def OneAuth (d : KDoc) : Prop := ∀ o oc, KDoc.get d kOptions = some o → o.children = some oc →
  oc.filter (fun s => s.name = kAuth) = [] ∨
  ∃ l, oc.filter (fun s => s.name = kAuth) = [.mk kAuth [] (some l)] ∧ ∀ k ∈ l, AuthNode k

open Config in
/-- A run of a command for which `file` is one of the configuration files, while the other sources and the command line do
not say anything of the option `opt`; `vals`: the values clap gives for it, in any order (tables have none). -/
structure LaterCommand (opt : Str) (file : IMap Str CVal) where
  defaults : IMap Str CVal
  other : IMap Str CVal
  env : IMap Str CVal
  cfg : IMap Str CVal
  wf : defaults.WF ∧ other.WF ∧ env.WF
  only : defaults.get? opt = none ∧ other.get? opt = none ∧ env.get? opt = none
  loaded : cfg = load defaults file env other ∨ cfg = load defaults other env file
  opts : List Opt
  declared : Declared opts
  typed : Typed opts cfg
  option : Opt
  option_mem : option ∈ opts
  option_name : option.name = opt ∧ option.takes = true ∧ option.reversed = false
  cli : List Str
  cli_complete : complete (takesOf opts) cli = true
  cli_silent : ∀ e ∈ events (takesOf opts) cli, e.1 ≠ opt ∧ e.1 ≠ neg opt
  cli_raw : dashes (neg opt) ∉ cli
  order : List Opt
  order_perm : order.Perm opts
  vals : List (Option Str)
  vals_perm : vals.Perm (Config.values opts (layered opts cfg order cli) option)

end Auth
end Oro
