import Verif.Props.Lockfile
/- C13 (what a lockfile says): properties of the nodes of package-lock.kdl mean nothing. -/

set_option linter.unusedSectionVars false

namespace Oro
variable {V I : Type}

/-- the node without its properties (`key=value`) -/
def KNode.plain1 (k : KNode) : KNode := .mk k.name (k.entries.filter fun e => e.1.isNone) k.children

/-- the nodes without their properties, and what is in their blocks as well -/
def plain2 (d : KDoc) : KDoc := d.map fun k => .mk k.name (k.entries.filter fun e => e.1.isNone) (k.children.map (·.map KNode.plain1))

/-- an entry of a lockfile without any properties -/
def KNode.plain (k : KNode) : KNode := .mk k.name (k.entries.filter fun e => e.1.isNone) (k.children.map plain2)

theorem find_filter {α : Type} (p : α → Bool) (l : List α) : (l.filter p).find? p = l.find? p := by
  induction l with
  | nil => rfl
  | cons a l ih => by_cases h : p a = true <;> simp [List.filter_cons, List.find?_cons, h, ih]

theorem arg0_plain {k k' : KNode} (h : k'.entries = k.entries.filter fun e => e.1.isNone) : k'.arg0 = k.arg0 := by
  unfold KNode.arg0
  rw [h, find_filter]

theorem get_plain2 (d : KDoc) (n : Str) : KDoc.get (plain2 d) n =
    (KDoc.get d n).map fun k => .mk k.name (k.entries.filter fun e => e.1.isNone) (k.children.map (·.map KNode.plain1)) := by
  unfold KDoc.get plain2
  rw [List.find?_map]
  rfl

theorem getArg_plain2 (d : KDoc) (n : Str) : KDoc.getArg (plain2 d) n = KDoc.getArg d n := by
  unfold KDoc.getArg
  rw [get_plain2]
  cases KDoc.get d n with
  | none => rfl
  | some k => exact arg0_plain rfl

theorem foldl_plain (l : List KNode) : ∀ m : IMap Str Str,
    (l.map KNode.plain1).foldl (fun m dep => m.insert dep.name ((dep.arg0.bind KVal.asStr).getD ['*'])) m =
    l.foldl (fun m dep => m.insert dep.name ((dep.arg0.bind KVal.asStr).getD ['*'])) m := by
  induction l with
  | nil => intro m; rfl
  | cons a l ih =>
    intro m
    simp only [List.map_cons, List.foldl_cons]
    rw [ih, arg0_plain (k := a) (k' := a.plain1) rfl]
    rfl

theorem deps_plain (d : KDoc) (ty : DepType) : depsFromKdl (plain2 d) ty = depsFromKdl d ty := by
  unfold depsFromKdl
  rw [get_plain2]
  cases KDoc.get d (sectionName ty) with
  | none => rfl
  | some k =>
    simp only [Option.map_some, KNode.children]
    cases k with
    | mk n e c =>
      cases c with
      | none => rfl
      | some l => exact foldl_plain l []

/-- **C13**: an entry of package-lock.kdl means the same with and without properties: only arguments count. -/
theorem C13_properties (c : Codec V I) (k : KNode) (b : Bool) : LNode.fromKdl c k.plain b = LNode.fromKdl c k b := by
  have hch : k.plain.children.getD [] = plain2 (k.children.getD []) := by
    cases k with
    | mk n e ch => cases ch <;> rfl
  have hpath : (k.plain.entries.filterMap fun e => if e.1.isNone then e.2.asStr else none) =
      k.entries.filterMap fun e => if e.1.isNone then e.2.asStr else none := by
    show ((k.entries.filter fun e => e.1.isNone).filterMap _) = _
    rw [List.filterMap_filter]
    congr 1
    funext e
    cases e.1.isNone <;> rfl
  unfold LNode.fromKdl
  simp only [hch, hpath, getArg_plain2, deps_plain]

/-- `pkg "a" { version x="2" "vvv" }` -/
example : (LNode.fromKdl (V := Nat) (I := Nat) ⟨fun n => List.replicate n 'v', fun s => some s.length, fun n => List.replicate n 'i', fun s => some s.length,
    by simp, by simp⟩ (.mk kPkg [(none, .str ['a'])] (some [.mk kVersion [(some ['x'], .str ['2']), (none, .str ['v', 'v', 'v'])] none])) false).toOption.map
    LNode.version = some (some 3) := by decide +kernel

end Oro
