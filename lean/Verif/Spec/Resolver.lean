import Verif.Model.Resolver
/-
Specification vocabulary for the resolver properties.  Nothing here uses the model's walking functions
(`ancestors`, `resolveDep`, `isAncestor`, `nodePath`, `climb` ...): only the raw graph data.
-/

set_option linter.unusedSectionVars false

namespace Oro
variable {N P S : Type} [DecidableEq N] [DecidableEq S]

/-- Node's module lookup: starting in the folder of package `i`, the name `n` loads package `c` – the entry of the
nearest enclosing `node_modules`, walking up the folders. -/
inductive NodeLoads (g : Graph N P S) : Nat → N → Nat → Prop
  | here {i : Nat} {n : N} {c : Nat} {nd : Node N P S} :
      g.nodes[i]? = some nd → nd.children.get? n = some c → NodeLoads g i n c
  | up {i p : Nat} {n : N} {c : Nat} {nd : Node N P S} :
      g.nodes[i]? = some nd → nd.children.get? n = none → nd.parent = some p → NodeLoads g p n c → NodeLoads g i n c

/-- Folder of `d` is the folder of `a` or inside it. -/
inductive Within (g : Graph N P S) : Nat → Nat → Prop
  | refl {i : Nat} {nd : Node N P S} : g.nodes[i]? = some nd → Within g i i
  | up {i p a : Nat} {nd : Node N P S} : g.nodes[i]? = some nd → nd.parent = some p → Within g p a → Within g i a

/-- The requirement `n` of package `i` has been linked, by edge `e`. -/
def Linked (g : Graph N P S) (i : Nat) (n : N) (e : Edge S) : Prop :=
  ∃ nd k, g.nodes[i]? = some nd ∧ nd.deps.get? n = some k ∧ g.edges[k]? = some e

/-- Package `i` declares a requirement `n` with specifier `spec` of kind `ty`. -/
def Declares (g : Graph N P S) (i : Nat) (n : N) (spec : S) (ty : DepType) : Prop :=
  ∃ nd, g.nodes[i]? = some nd ∧ nd.reqs.get? n = some (spec, ty)

/-- C01: every linked requirement loads, at run time, the package it was linked to. -/
def LinksLoad (g : Graph N P S) : Prop := ∀ i n e, Linked g i n e → NodeLoads g i n e.dst

/-- C03: `g` describes a folder tree rooted at package 0. -/
structure FolderTree (g : Graph N P S) : Prop where
  /-- there is a root and it has no parent folder -/
  root : ∃ nd, g.nodes[0]? = some nd ∧ nd.parent = none
  /-- every other package has a parent folder, which lists it under its own name -/
  listed : ∀ (i : Nat) (nd : Node N P S), g.nodes[i]? = some nd → i ≠ 0 →
    ∃ p pn, nd.parent = some p ∧ g.nodes[p]? = some pn ∧ pn.children.get? nd.name = some i
  /-- everything a folder lists is a package whose parent it is, under its own name -/
  lists : ∀ (p : Nat) (pn : Node N P S) (n : N) (c : Nat), g.nodes[p]? = some pn → pn.children.get? n = some c →
    ∃ nd, g.nodes[c]? = some nd ∧ nd.parent = some p ∧ nd.name = n
  /-- a folder lists each name at most once -/
  unique : ∀ (p : Nat) (pn : Node N P S), g.nodes[p]? = some pn → pn.children.WF
  /-- following parents from any package reaches the root -/
  rooted : ∀ (i : Nat) (nd : Node N P S), g.nodes[i]? = some nd → Within g i 0

/-- Package `i` sits at location `π`: the names of the folders from the project root down to it. -/
inductive LocatedAt (g : Graph N P S) : Nat → List N → Prop
  | root {nd : Node N P S} : g.nodes[0]? = some nd → LocatedAt g 0 []
  | inside {i p : Nat} {π : List N} {nd : Node N P S} : g.nodes[i]? = some nd → nd.parent = some p →
      LocatedAt g p π → LocatedAt g i (π ++ [nd.name])

/-- Everything in `g` is still there, unchanged and in the same place, in `g'`. -/
def Kept (g g' : Graph N P S) : Prop :=
  (∀ (i : Nat) (nd : Node N P S), g.nodes[i]? = some nd → ∃ nd', g'.nodes[i]? = some nd' ∧ nd'.name = nd.name ∧
    nd'.pkg = nd.pkg ∧ nd'.reqs = nd.reqs ∧ nd'.parent = nd.parent ∧
    ∀ n c, nd.children.get? n = some c → nd'.children.get? n = some c) ∧
  (∀ i n e, Linked g i n e → Linked g' i n e)

/-- States of the resolver reachable from the root under any schedule. -/
inductive RReach (env : Env N P S) (lock : Option (LockTree N P)) (root : Node N P S) : RState N P S → Prop
  | init : RReach env lock root (rinit root)
  | step {s s' : RState N P S} (ev : REvent S) :
      RReach env lock root s → rstep env lock s ev = some (.ok s') → RReach env lock root s'

/-- A root node as built by `Node::new(.., is_root = true)`. -/
def IsRoot (env : Env N P S) (root : Node N P S) : Prop :=
  ∃ name pkg m, Node.new env.parse name pkg m true = some root

/-- The hazard behind C01: package `dep.node` is about to receive its own copy of `dep.name`, although some package
inside its folder has already been linked to the copy that `dep.node` sees now. -/
def Shadows (g : Graph N P S) (dep : Dep N S) : Prop :=
  ∃ e ∈ g.edges, Within g e.src dep.node ∧ NodeLoads g dep.node dep.name e.dst

/-- All requirements waiting for a response: sent but not picked up, or waiting on a running fetch. -/
def RState.waiting (s : RState N P S) : List (Dep N S) := s.chan ++ s.fetches.flatMap (·.2)

/-- What a manifest requires: dev dependencies count for the root only and win over optional ones, which win over
ordinary ones of the same name. -/
def Requires (m : Manifest N) (isRoot : Bool) (n : N) (raw : Str) (ty : DepType) : Prop :=
  (ty = .dev ∧ isRoot = true ∧ (n, raw) ∈ m.devDeps) ∨
  (ty = .opt ∧ (n, raw) ∈ m.optDeps ∧ ¬ (isRoot = true ∧ n ∈ m.devDeps.map (·.1))) ∨
  (ty = .prod ∧ (n, raw) ∈ m.deps ∧ n ∉ m.optDeps.map (·.1) ∧ ¬ (isRoot = true ∧ n ∈ m.devDeps.map (·.1)))

/-- Each section of a manifest mentions a name at most once (it is read from a JSON object). -/
def Manifest.Proper (m : Manifest N) : Prop :=
  (m.deps.map (·.1)).Nodup ∧ (m.optDeps.map (·.1)).Nodup ∧ (m.devDeps.map (·.1)).Nodup

/-- The package `pkg` with manifest `m` is what the registry, or an entry of the lockfile, says. -/
def KnownPackage (env : Env N P S) (lock : Option (LockTree N P)) (pkg : P) (m : Manifest N) : Prop :=
  (∃ spec, env.fetch spec = some (pkg, m)) ∨
  (∃ l π ent, lock = some l ∧ l.get? π = some ent ∧ ent.pkg = some (some pkg) ∧ ent.manifest = m)

/-- Package `p` is installed at location `π`. -/
def Installed (g : Graph N P S) (π : List N) (p : P) : Prop :=
  ∃ i nd, LocatedAt g i π ∧ g.nodes[i]? = some nd ∧ nd.pkg = p

/-- Schedules without lockfile in which every chunk handled contains all outstanding responses. -/
inductive RoundReach (env : Env N P S) (root : Node N P S) : RState N P S → Prop
  | init : RoundReach env root (rinit root)
  | step {s s' : RState N P S} (ev : REvent S) : RoundReach env root s →
      (ev = .deliver → s.chan = [] ∧ s.active = []) → rstep env none s ev = some (.ok s') → RoundReach env root s'

/-- Schedules in which nothing is ever fetched. -/
inductive OfflineReach (env : Env N P S) (lock : Option (LockTree N P)) (root : Node N P S) : RState N P S → Prop
  | init : OfflineReach env lock root (rinit root)
  | step {s s' : RState N P S} : OfflineReach env lock root s → rstep env lock s .pop = some (.ok s') →
      s'.waiting = [] → OfflineReach env lock root s'

/-- The event does not start work on a package while a requirement of a package whose folder encloses it is still
unanswered. -/
def InOrder (s : RState N P S) : REvent S → Prop
  | .pop => ∀ i ∈ s.q.head?, ∀ d ∈ s.waiting, Within s.graph i d.node → d.node = i
  | _ => True

/-- States reachable by schedules all of whose events are `InOrder`. -/
inductive OrderlyReach (env : Env N P S) (lock : Option (LockTree N P)) (root : Node N P S) : RState N P S → Prop
  | init : OrderlyReach env lock root (rinit root)
  | step {s s' : RState N P S} (ev : REvent S) : OrderlyReach env lock root s → InOrder s ev →
      rstep env lock s ev = some (.ok s') → OrderlyReach env lock root s'

end Oro
