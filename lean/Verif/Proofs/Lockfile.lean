import Verif.Spec.Lockfile
import Verif.Proofs.ResolverMore
/- Lockfile round trip, canonical form and equality. -/

set_option linter.unusedSectionVars false

namespace Oro
variable {V I : Type}

theorem insertBy_map {α β : Type} (le : β → β → Bool) (f : α → β) (a : α) (l : List α) :
    insertBy le (f a) (l.map f) = (insertBy (fun x y => le (f x) (f y)) a l).map f := by
  induction l with
  | nil => rfl
  | cons b l ih =>
    simp only [List.map_cons, insertBy]
    split
    · rfl
    · simp [ih]

theorem sortBy_map {α β : Type} (le : β → β → Bool) (f : α → β) (l : List α) :
    sortBy le (l.map f) = (sortBy (fun x y => le (f x) (f y)) l).map f := by
  induction l with
  | nil => rfl
  | cons a l ih => simp only [List.map_cons, sortBy, ih, insertBy_map]

/-- entries sorted by key -/
def sortKeys {W : Type} (m : IMap Str W) : IMap Str W := sortBy (fun a b => strLe a.1 b.1) m

theorem sortKeys_perm {W : Type} (m : IMap Str W) : (sortKeys m).Perm m := sortBy_perm _ m

theorem sortKeys_wf {W : Type} {m : IMap Str W} (h : m.WF) : (sortKeys m).WF :=
  (((sortKeys_perm m).map Prod.fst).nodup_iff).mpr h

theorem get?_sortKeys {W : Type} {m : IMap Str W} (h : m.WF) (k : Str) : (sortKeys m).get? k = m.get? k :=
  (IMap.get?_perm h (sortKeys_perm m).symm k).symm

theorem foldl_leaf (l m : IMap Str Str) :
    (l.map fun d => KNode.leaf d.1 d.2).foldl
      (fun (m : IMap Str Str) dep => m.insert dep.name ((dep.arg0.bind KVal.asStr).getD ['*'])) m
    = l.foldl (fun m kv => m.insert kv.1 kv.2) m := by
  induction l generalizing m with
  | nil => rfl
  | cons a l ih => simp only [List.map_cons, List.foldl_cons]; rw [ih]; rfl

theorem depsToKdl_children (ty : DepType) (deps : IMap Str Str) :
    (depsToKdl ty deps).children = some ((sortKeys deps).map fun d => KNode.leaf d.1 d.2) := by
  simp only [depsToKdl, KNode.children, sortBy_map]; rfl

theorem read_depsToKdl {ty : DepType} {deps : IMap Str Str} (h : deps.WF) {d : KDoc}
    (hd : KDoc.get d (sectionName ty) = some (depsToKdl ty deps)) : depsFromKdl d ty = sortKeys deps := by
  simp only [depsFromKdl, hd, depsToKdl_children, foldl_leaf]
  exact IMap.ofList_nodup (sortKeys_wf h)

/-! ### lookups in the children of a node -/

theorem get_append (a b : KDoc) (n : Str) : KDoc.get (a ++ b) n = (KDoc.get a n).or (KDoc.get b n) := by
  simp [KDoc.get, List.find?_append]

theorem get_depsBlock (ty : DepType) (deps : IMap Str Str) (n : Str) : KDoc.get (depsBlock ty deps) n =
    if deps.isEmpty then none else if sectionName ty = n then some (depsToKdl ty deps) else none := by
  unfold depsBlock
  split
  · rfl
  · by_cases h : sectionName ty = n
    · simp [KDoc.get, depsToKdl, KNode.name, h]
    · simp [KDoc.get, depsToKdl, KNode.name, h]

theorem get_leaf (a b n : Str) (l : KDoc) :
    KDoc.get (KNode.leaf a b :: l) n = if a = n then some (KNode.leaf a b) else KDoc.get l n := by
  by_cases h : a = n <;> simp [KDoc.get, KNode.leaf, KNode.name, h]

theorem get_nil (n : Str) : KDoc.get [] n = none := rfl

theorem get_versionBlock (c : Codec V I) (v : Option V) (n : Str) : KDoc.get (versionBlock c v) n =
    if kVersion = n then v.map (fun v => KNode.leaf kVersion (c.showV v)) else none := by
  cases v <;> simp [versionBlock, get_leaf, get_nil]

theorem get_resolvedBlock (c : Codec V I) (root : Bool) (r : Option Str) (i : Option I) (n : Str) :
    KDoc.get (resolvedBlock c root r i) n =
    if root then none
    else if kResolved = n then r.map (KNode.leaf kResolved)
    else if kIntegrity = n then r.bind (fun _ => i.map fun i => KNode.leaf kIntegrity (c.showI i))
    else none := by
  cases r <;> cases root <;> cases i <;> simp [resolvedBlock, get_leaf, get_nil]

theorem secname_inj {a b : DepType} : sectionName a = sectionName b ↔ a = b := by
  cases a <;> cases b <;> decide

theorem get_children_section (c : Codec V I) (n : LNode V I) (ty : DepType) :
    KDoc.get (n.kdlChildren c) (sectionName ty) =
      if (n.section ty).isEmpty then none else some (depsToKdl ty (n.section ty)) := by
  have h1 : ∀ ty, ¬ kVersion = sectionName ty := by intro ty; cases ty <;> decide
  have h2 : ∀ ty, ¬ kResolved = sectionName ty := by intro ty; cases ty <;> decide
  have h3 : ∀ ty, ¬ kIntegrity = sectionName ty := by intro ty; cases ty <;> decide
  simp only [LNode.kdlChildren, get_append, get_versionBlock, get_resolvedBlock, get_depsBlock, h1, h2, h3, if_false,
    secname_inj, ite_self, Option.none_or]
  cases ty <;> simp [LNode.section]

/-- a node's own field is not a section -/
theorem get_children_field (c : Codec V I) (n : LNode V I) (f : Str) (hf : ∀ ty, sectionName ty ≠ f) :
    KDoc.get (n.kdlChildren c) f =
      (KDoc.get (versionBlock c n.version) f).or (KDoc.get (resolvedBlock c n.isRoot n.resolved n.integrity) f) := by
  simp only [LNode.kdlChildren, get_append, get_depsBlock, hf, if_false, ite_self, Option.or_none]

theorem arg_leaf (n s : Str) : (KNode.leaf n s).arg0 = some (.str s) := rfl

theorem getArg_version (c : Codec V I) (n : LNode V I) :
    (KDoc.getArg (n.kdlChildren c) kVersion).bind KVal.asStr = n.version.map c.showV := by
  rw [KDoc.getArg, get_children_field c n _ (by intro ty; cases ty <;> decide), get_versionBlock, get_resolvedBlock]
  have h2 : ¬ kResolved = kVersion := by decide
  have h3 : ¬ kIntegrity = kVersion := by decide
  simp only [h2, h3, if_true, if_false, ite_self, Option.or_none]
  cases n.version <;> simp [arg_leaf, KVal.asStr]

theorem getArg_resolved (c : Codec V I) (n : LNode V I) :
    (KDoc.getArg (n.kdlChildren c) kResolved).bind KVal.asStr = if n.isRoot then none else n.resolved := by
  rw [KDoc.getArg, get_children_field c n _ (by intro ty; cases ty <;> decide), get_versionBlock, get_resolvedBlock]
  have h1 : ¬ kVersion = kResolved := by decide
  simp only [h1, if_true, if_false, Option.none_or]
  cases n.isRoot <;> cases n.resolved <;> simp [arg_leaf, KVal.asStr]

theorem getArg_integrity (c : Codec V I) (n : LNode V I) :
    (KDoc.getArg (n.kdlChildren c) kIntegrity).bind KVal.asStr =
      if n.isRoot then none else n.resolved.bind fun _ => n.integrity.map c.showI := by
  rw [KDoc.getArg, get_children_field c n _ (by intro ty; cases ty <;> decide), get_versionBlock, get_resolvedBlock]
  have h1 : ¬ kVersion = kIntegrity := by decide
  have h2 : ¬ kResolved = kIntegrity := by decide
  simp only [h1, h2, if_true, if_false, Option.none_or]
  cases n.isRoot <;> cases n.resolved <;> cases n.integrity <;> simp [arg_leaf, KVal.asStr]

theorem depsFromKdl_children (c : Codec V I) (n : LNode V I) (ty : DepType) (h : (n.section ty).WF) :
    depsFromKdl (n.kdlChildren c) ty = sortKeys (n.section ty) := by
  have hg := get_children_section c n ty
  split at hg
  · rename_i he
    rw [List.isEmpty_iff] at he
    simp [depsFromKdl, hg, he, sortKeys, sortBy]
  · exact read_depsToKdl h hg

/-- what reading back a written entry gives -/
def LNode.norm (n : LNode V I) (asRoot : Bool) : LNode V I :=
  { name := if asRoot then [] else n.path.getLast?.getD []
    isRoot := asRoot
    path := n.path
    resolved := if n.isRoot then none else n.resolved
    version := n.version
    integrity := if n.isRoot then none else n.resolved.bind fun _ => n.integrity
    deps := sortKeys n.deps, devDeps := sortKeys n.devDeps, peerDeps := sortKeys n.peerDeps,
    optDeps := sortKeys n.optDeps }

theorem LNode.norm_section (n : LNode V I) (b : Bool) (ty : DepType) :
    (n.norm b).section ty = sortKeys (n.section ty) := by cases ty <;> rfl

theorem LNode.norm_reqs {n : LNode V I} (hw : n.WF) (b : Bool) : SameReqs (n.norm b) n := by
  intro ty k
  rw [LNode.norm_section]
  exact get?_sortKeys (hw ty) k

theorem LNode.norm_entry {n : LNode V I} (hw : n.WF) (hr : n.isRoot = false)
    (hi : n.resolved = none → n.integrity = none) (b : Bool) : SameEntry (n.norm b) n where
  path := rfl
  version := rfl
  resolved := by simp [LNode.norm, hr]
  integrity := by
    cases hres : n.resolved with
    | none => simp [LNode.norm, hr, hres, hi hres]
    | some r => simp [LNode.norm, hr, hres]
  reqs := LNode.norm_reqs hw b

theorem path_entries (p : List Str) :
    (p.map fun p => ((none : Option Str), KVal.str p)).filterMap
      (fun e => if e.1.isNone then e.2.asStr else none) = p := by
  induction p with
  | nil => rfl
  | cons a p ih => simp [KVal.asStr]

theorem LNode.fromKdl_toKdl (c : Codec V I) (n : LNode V I) (asRoot : Bool) (hw : n.WF)
    (hp : asRoot = true ∨ n.path ≠ []) : LNode.fromKdl c (n.toKdl c) asRoot = .ok (n.norm asRoot) := by
  have hch : (n.toKdl c).children.getD [] = n.kdlChildren c := by
    unfold LNode.toKdl KNode.children
    cases h : n.kdlChildren c <;> simp
  have hname : readName asRoot n.path = .ok (n.norm asRoot).name := by
    unfold readName LNode.norm
    cases asRoot with
    | true => rfl
    | false =>
      have hp' : n.path ≠ [] := by simpa using hp
      simp [List.getLast?_eq_some_getLast hp']
  have hint : parseOpt c.parseI .badIntegrity (if n.isRoot then none else n.resolved.bind fun _ => n.integrity.map c.showI)
      = .ok (n.norm asRoot).integrity := by
    simp only [LNode.norm]
    cases n.isRoot <;> cases n.resolved <;> cases n.integrity <;> simp [parseOpt, c.parse_showI]
  have hver : parseOpt c.parseV .badSemver (n.version.map c.showV) = .ok (n.norm asRoot).version := by
    simp only [LNode.norm]
    cases n.version <;> simp [parseOpt, c.parse_showV]
  have hpath : (n.toKdl c).entries = n.path.map fun p => (none, KVal.str p) := rfl
  unfold LNode.fromKdl
  simp only [hch, hpath, path_entries, getArg_version, getArg_resolved, getArg_integrity, hint, hver, hname,
    depsFromKdl_children c n _ (hw _)]
  rfl

theorem collectNodes_ok (l : List (LNode V I)) (m : IMap Str (LNode V I))
    (h : IMap.WF (m ++ l.map fun n => (joinPath n.path, n))) :
    collectNodes (l.map .ok) m = .ok (m ++ l.map fun n => (joinPath n.path, n)) := by
  induction l generalizing m with
  | nil => simp [collectNodes]
  | cons a l ih =>
    have h1 : joinPath a.path ∉ IMap.keys m := by
      simp only [IMap.WF, IMap.keys, List.map_append, List.map_cons] at h
      intro hc
      exact (List.nodup_append.mp h).2.2 _ hc _ (List.mem_cons_self) rfl
    simp only [List.map_cons, collectNodes]
    rw [IMap.insert_of_notMem _ h1, ih _ (by simpa using h)]
    simp

theorem pkg_of_toKdl (c : Codec V I) (n : LNode V I) : (n.toKdl c).name = if n.isRoot then kRoot else kPkg :=
  rfl

/-- what reading back a written lockfile gives, exactly -/
theorem Lockfile.fromKdl_toKdl (c : Codec V I) (l : Lockfile V I) (h : l.Proper) :
    Lockfile.fromKdl c (l.toKdl c) = .ok
      { version := l.version, root := l.root.norm true,
        packages := (sortKeys l.packages).map fun p => (p.1, p.2.norm false) } := by
  have hent : ∀ p ∈ sortKeys l.packages, p.2.isRoot = false ∧ p.2.path ≠ [] ∧ p.1 = joinPath p.2.path :=
    fun p hp => h.entries p ((sortKeys_perm _).mem_iff.mp hp)
  have hwfn : ∀ p ∈ sortKeys l.packages, p.2.WF := fun p hp => h.wf.nodes p ((sortKeys_perm _).mem_iff.mp hp)
  have hwf := sortKeys_wf h.wf.keys
  have hfilter : (l.toKdl c).filter (fun k => decide (k.name = kPkg)) =
      (sortKeys l.packages).map fun p => p.2.toKdl c := by
    have hroot : (l.root.toKdl c).name = kRoot := by rw [pkg_of_toKdl, h.isRoot]; rfl
    unfold Lockfile.toKdl
    rw [List.filter_cons_of_neg (by simp only [KNode.name]; exact (by decide : ¬ decide (kLockVersion = kPkg) = true)), List.filter_cons_of_neg (by rw [hroot]; decide)]
    refine List.filter_eq_self.mpr ?_
    intro k hk
    obtain ⟨p, hp, rfl⟩ := List.mem_map.mp hk
    rw [pkg_of_toKdl, (hent p hp).1]; rfl
  have hpk : (((sortKeys l.packages).map fun p => p.2.toKdl c).map fun k => LNode.fromKdl c k false) =
      ((sortKeys l.packages).map fun p => p.2.norm false).map .ok := by
    simp only [List.map_map]
    refine List.map_congr_left ?_
    intro p hp
    exact LNode.fromKdl_toKdl c p.2 false (hwfn p hp) (Or.inr (hent p hp).2.1)
  have hkeys : ((sortKeys l.packages).map fun p => p.2.norm false).map (fun n => (joinPath n.path, n)) =
      (sortKeys l.packages).map fun p => (p.1, p.2.norm false) := by
    rw [List.map_map]
    refine List.map_congr_left ?_
    intro p hp
    simp only [Function.comp, LNode.norm, (hent p hp).2.2]
  have hver : readVersion ((KDoc.getArg (l.toKdl c) kLockVersion).bind KVal.asInt) 1 = .ok l.version := by
    have : (KDoc.getArg (l.toKdl c) kLockVersion).bind KVal.asInt = some (l.version : Int) := by
      simp [KDoc.getArg, KDoc.get, Lockfile.toKdl, KNode.name, KNode.arg0, KNode.entries, KVal.asInt, asI64, h.version]
    rw [this]; simp [readVersion]
  have hroot : KDoc.get (l.toKdl c) kRoot = some (l.root.toKdl c) := by
    have hn : (l.root.toKdl c).name = kRoot := by rw [pkg_of_toKdl, h.isRoot]; rfl
    unfold Lockfile.toKdl KDoc.get
    rw [List.find?_cons_of_neg (by simp only [KNode.name]; exact (by decide : ¬ decide (kLockVersion = kRoot) = true)), List.find?_cons_of_pos (by rw [hn]; rfl)]
  unfold Lockfile.fromKdl
  rw [hfilter, hpk, collectNodes_ok _ [] (by
    simp only [List.nil_append]; rw [hkeys]; exact IMap.wf_map (f := fun n => n.norm false) hwf), hver, hroot]
  simp only [List.nil_append]
  rw [hkeys]
  simp only [readRoot]
  rw [LNode.fromKdl_toKdl c l.root true h.wf.root (Or.inl rfl)]
  rfl

/-! ### canonical form -/

theorem sortKeys_eq_of_same {W : Type} {m m' : IMap Str W} (h : m.WF) (h' : m'.WF) (hs : ∀ k, m.get? k = m'.get? k) :
    sortKeys m = sortKeys m' := sortBy_key_eq _ (IMap.perm_of_get? h h' hs) h

theorem depsBlock_same (ty : DepType) {m m' : IMap Str Str} (h : m.WF) (h' : m'.WF)
    (hs : ∀ k, m.get? k = m'.get? k) : depsBlock ty m = depsBlock ty m' := by
  have hp := IMap.perm_of_get? h h' hs
  have he : m.isEmpty = m'.isEmpty := by
    have := hp.length_eq
    cases m <;> cases m' <;> simp_all
  have hsort : sortKeys m = sortKeys m' := sortKeys_eq_of_same h h' hs
  unfold depsBlock depsToKdl
  rw [he, sortBy_map, sortBy_map]
  have : sortBy (fun x y => strLe (KNode.leaf x.1 x.2).name (KNode.leaf y.1 y.2).name) m =
      sortBy (fun x y => strLe (KNode.leaf x.1 x.2).name (KNode.leaf y.1 y.2).name) m' := hsort
  rw [this]

theorem LNode.toKdl_same (c : Codec V I) {a b : LNode V I} (ha : a.WF) (hb : b.WF) (h : SameNode a b) :
    a.toKdl c = b.toKdl c := by
  have hs := h.entry.reqs
  have hch : a.kdlChildren c = b.kdlChildren c := by
    have h1 := depsBlock_same .prod (ha .prod) (hb .prod) (hs .prod)
    have h2 := depsBlock_same .dev (ha .dev) (hb .dev) (hs .dev)
    have h3 := depsBlock_same .peer (ha .peer) (hb .peer) (hs .peer)
    have h4 := depsBlock_same .opt (ha .opt) (hb .opt) (hs .opt)
    simp only [LNode.section] at h1 h2 h3 h4
    unfold LNode.kdlChildren
    rw [h.entry.version, h.isRoot, h.entry.resolved, h.entry.integrity, h1, h2, h3, h4]
  unfold LNode.toKdl
  rw [hch, h.isRoot, h.entry.path]

theorem Lockfile.toKdl_same (c : Codec V I) {a b : Lockfile V I} (ha : a.WF) (hb : b.WF) (h : SameLockfile a b) :
    a.toKdl c = b.toKdl c := by
  have hp : sortKeys (a.packages.map fun p => (p.1, p.2.toKdl c)) = sortKeys (b.packages.map fun p => (p.1, p.2.toKdl c)) := by
    refine sortKeys_eq_of_same (IMap.wf_map ha.keys) (IMap.wf_map hb.keys) ?_
    intro k
    rw [IMap.get?_map, IMap.get?_map]
    rcases h.packages k with ⟨h1, h2⟩ | ⟨x, y, h1, h2, hxy⟩
    · rw [h1, h2]
    · rw [h1, h2]
      simp only [Option.map_some]
      rw [LNode.toKdl_same c (ha.nodes _ (IMap.mem_of_get? h1)) (hb.nodes _ (IMap.mem_of_get? h2)) hxy]
  have key : ∀ l : Lockfile V I, (sortBy (fun a b => strLe a.1 b.1) l.packages).map (fun p => p.2.toKdl c) =
      (sortKeys (l.packages.map fun p => (p.1, p.2.toKdl c))).map (·.2) := by
    intro l
    unfold sortKeys
    rw [sortBy_map]
    simp
  unfold Lockfile.toKdl
  rw [h.version, LNode.toKdl_same c ha.root hb.root h.root, key, key, hp]

/-! ### equality -/

theorem imapEq_iff {K W : Type} [DecidableEq K] {eq : W → W → Bool} {a b : IMap K W} (ha : a.WF) (hb : b.WF) :
    imapEq eq a b = true ↔ SameMap (fun x y => eq x y = true) a b := by
  unfold imapEq
  simp only [Bool.and_eq_true, decide_eq_true_eq, List.all_eq_true]
  constructor
  · rintro ⟨hl, hall⟩
    have hsub : ∀ k ∈ a.keys, k ∈ b.keys := by
      intro k hk
      obtain ⟨p, hp, rfl⟩ := List.mem_map.mp hk
      have := hall p hp
      by_contra hc
      rw [(IMap.get?_eq_none_iff b p.1).mpr hc] at this
      cases this
    have hsub' : ∀ k ∈ b.keys, k ∈ a.keys := by
      have hpm : a.keys.Perm b.keys :=
        (List.subperm_of_subset ha hsub).perm_of_length_le (by simp [IMap.keys, hl])
      exact fun k hk => hpm.mem_iff.mpr hk
    intro k
    cases hk : a.get? k with
    | none =>
      left
      refine ⟨rfl, ?_⟩
      rw [IMap.get?_eq_none_iff] at hk ⊢
      exact fun hc => hk (hsub' k hc)
    | some v =>
      right
      have := hall _ (IMap.mem_of_get? hk)
      simp only at this
      split at this
      · rename_i w hw; exact ⟨v, w, rfl, hw, this⟩
      · cases this
  · intro h
    have hsub : ∀ (k : K), k ∈ a.keys ↔ k ∈ b.keys := by
      intro k
      rcases h k with ⟨h1, h2⟩ | ⟨x, y, h1, h2, _⟩
      · rw [IMap.get?_eq_none_iff] at h1 h2; simp [h1, h2]
      · exact ⟨fun _ => IMap.mem_keys_of_mem (IMap.mem_of_get? h2), fun _ => IMap.mem_keys_of_mem (IMap.mem_of_get? h1)⟩
    refine ⟨?_, ?_⟩
    · have := ((List.perm_ext_iff_of_nodup ha hb).mpr hsub).length_eq
      simpa [IMap.keys] using this
    · intro p hp
      have hg := IMap.get?_of_mem ha (k := p.1) (v := p.2) hp
      rcases h p.1 with ⟨h1, _⟩ | ⟨x, y, h1, h2, hxy⟩
      · rw [hg] at h1; cases h1
      · rw [hg] at h1; cases h1
        rw [h2]; exact hxy

theorem sameMap_eq {K W : Type} [DecidableEq K] {m m' : IMap K W} :
    SameMap (fun x y => x = y) m m' ↔ ∀ k, m.get? k = m'.get? k := by
  constructor
  · intro h k
    rcases h k with ⟨h1, h2⟩ | ⟨x, y, h1, h2, rfl⟩ <;> rw [h1, h2]
  · intro h k
    cases hk : m.get? k with
    | none => exact Or.inl ⟨rfl, by rw [← h, hk]⟩
    | some v => exact Or.inr ⟨v, v, rfl, by rw [← h, hk], rfl⟩

variable [DecidableEq V] [DecidableEq I]

theorem LNode.eqv_iff {a b : LNode V I} (ha : a.WF) (hb : b.WF) : a.eqv b = true ↔ SameNode a b := by
  have hd := fun ty => imapEq_iff (eq := fun x y : Str => decide (x = y)) (ha ty) (hb ty)
  simp only [decide_eq_true_eq, sameMap_eq] at hd
  have h1 := hd .prod; have h2 := hd .dev; have h3 := hd .peer; have h4 := hd .opt
  simp only [LNode.section] at h1 h2 h3 h4
  simp only [LNode.eqv, Bool.and_eq_true, decide_eq_true_eq, h1, h2, h3, h4]
  constructor
  · rintro ⟨⟨⟨⟨⟨⟨⟨⟨⟨e1, e2⟩, e3⟩, e4⟩, e5⟩, e6⟩, e7⟩, e8⟩, e9⟩, e10⟩
    exact ⟨⟨e3, e5, e4, e6, fun ty => by cases ty <;> assumption⟩, e1, e2⟩
  · rintro ⟨⟨e3, e5, e4, e6, hr⟩, e1, e2⟩
    exact ⟨⟨⟨⟨⟨⟨⟨⟨⟨e1, e2⟩, e3⟩, e4⟩, e5⟩, e6⟩, hr .prod⟩, hr .dev⟩, hr .peer⟩, hr .opt⟩

theorem SameMap.mono {K W : Type} [DecidableEq K] {R Q : W → W → Prop} {m m' : IMap K W}
    (hRQ : ∀ a b k k', (k, a) ∈ m → (k', b) ∈ m' → R a b → Q a b) (h : SameMap R m m') : SameMap Q m m' := by
  intro k
  rcases h k with h | ⟨x, y, h1, h2, h3⟩
  · exact Or.inl h
  · exact Or.inr ⟨x, y, h1, h2, hRQ x y k k (IMap.mem_of_get? h1) (IMap.mem_of_get? h2) h3⟩

theorem Lockfile.eqv_iff {a b : Lockfile V I} (ha : a.WF) (hb : b.WF) : a.eqv b = true ↔ SameLockfile a b := by
  simp only [Lockfile.eqv, Bool.and_eq_true, decide_eq_true_eq, LNode.eqv_iff ha.root hb.root,
    imapEq_iff ha.keys hb.keys]
  constructor
  · rintro ⟨⟨h1, h2⟩, h3⟩
    exact ⟨h1, h2, h3.mono fun x y k k' hx hy h => (LNode.eqv_iff (ha.nodes _ hx) (hb.nodes _ hy)).mp h⟩
  · rintro ⟨h1, h2, h3⟩
    exact ⟨⟨h1, h2⟩, h3.mono fun x y k k' hx hy h => (LNode.eqv_iff (ha.nodes _ hx) (hb.nodes _ hy)).mpr h⟩

end Oro
