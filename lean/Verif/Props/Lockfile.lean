import Verif.Examples.Lockfile
/- Properties C11–C18: the lockfile. -/

set_option linter.unusedSectionVars false

namespace Oro
open Graph
variable {P S V I : Type} [DecidableEq S]

section
variable {env : Env Str P S} {lock : Option (LockTree Str P)} {root : Node Str P S} {s : RState Str P S}
  {v : LockView P S V I} {c : Codec V I}

/-! ## C11 -/

/-- C11. In locked mode with a lockfile present the resolve succeeds exactly if the lockfile of the resolved tree has
the same contents as the given one, and then returns that tree; otherwise it reports a mismatch. -/
theorem C11_locked [DecidableEq V] [DecidableEq I] (hr : IsRoot env root) (h : RReach env lock root s)
    {l : Lockfile V I} (hl : l.WF) (g' : Graph Str P S) :
    finish v true (some l) s.graph = some g' ↔
      g' = s.graph ∧ ∃ l', toLockfile v s.graph = some l' ∧ SameLockfile l l' := by
  obtain ⟨l', hl'⟩ := toLockfile_isSome (h.sinv hr).pinv.ginv.folderTree v
  have heq := Lockfile.eqv_iff hl (toLockfile_wf hl')
  simp only [finish, if_true, hl', Option.bind_some, Option.some.injEq, exists_eq_left']
  split
  · rename_i he
    simp only [Option.some.injEq]
    exact ⟨fun e => ⟨e.symm, heq.mp he⟩, fun e => e.1.symm⟩
  · rename_i he
    refine ⟨fun hc => (by cases hc), fun hc => absurd (heq.mpr hc.2) he⟩

/-- C11 (other modes). Without the locked option, or without a lockfile, the tree is returned as it is. -/
theorem C11_unlocked [DecidableEq V] [DecidableEq I] (g : Graph Str P S) (l : Option (Lockfile V I)) :
    finish v false l g = some g ∧ finish (V := V) (I := I) v true none g = some g := ⟨rfl, rfl⟩

/-! ## C12 -/

/-- C12 is false of the code, always: whatever tree was resolved, its lockfile written out and read back is rejected by
locked mode for that very tree (the root entry comes back without its name and source). -/
theorem C12_fails [DecidableEq V] [DecidableEq I] (hr : IsRoot env root) (h : RReach env lock root s)
    {l l' : Lockfile V I} (hl : toLockfile v s.graph = some l) (hl' : Lockfile.fromKdl c (l.toKdl c) = .ok l') :
    finish v true (some l') s.graph = none := by
  have hg := (h.sinv hr).pinv.ginv
  rw [Lockfile.fromKdl_toKdl c l (toLockfile_proper hg.folderTree hg.ord hl)] at hl'
  cases hl'
  simp only [finish, if_true, hl, Option.bind_some]
  rw [if_neg]
  intro he
  have hroot := lockNode_path (toLockfile_root hl).1
  simp only [Lockfile.eqv, Bool.and_eq_true, LNode.eqv, decide_eq_true_eq] at he
  have hres := he.1.2.1.1.1.1.1.1.2
  simp only [LNode.norm, hroot.2.1, if_true] at hres
  rw [← hres] at hroot
  simp at hroot

/-- C12 for npm lockfiles: they are rejected by locked mode for every tree as well (the imported lockfile contains the
project itself as a package), unless some package has an empty name. -/
theorem C12_npm_fails [DecidableEq V] [DecidableEq I] (hr : IsRoot env root) (h : RReach env lock root s)
    (hn : ∀ i nd, i ≠ 0 → s.graph.nodes[i]? = some nd → nd.name ≠ [])
    {ver : Option Nat} {pk : IMap Str NpmEntry} {l : Lockfile V I} (hl : Lockfile.fromNpm c ver pk = .ok l) :
    finish v true (some l) s.graph = none := by
  have hg := (h.sinv hr).pinv.ginv
  obtain ⟨l', hl'⟩ := toLockfile_isSome hg.folderTree v
  simp only [finish, if_true, hl', Option.bind_some]
  rw [if_neg]
  intro he
  simp only [Lockfile.eqv, imapEq, Bool.and_eq_true, decide_eq_true_eq, List.all_eq_true] at he
  -- the import has an entry under the empty key
  have hkey : ∃ n, ([], n) ∈ l.packages := by
    obtain ⟨ns, h1, h2, h3, _⟩ := Lockfile.fromNpm_ok hl
    cases hp : pk.get? [] with
    | none => rw [hp] at h3; cases h3
    | some e =>
      rw [hp] at h3
      simp only [npmRoot] at h3
      have hm : (LNode.fromNpm c [] e) ∈ ns.map Except.ok := by
        rw [← h1]; exact List.mem_map.mpr ⟨_, IMap.mem_of_get? hp, rfl⟩
      rw [h3] at hm
      obtain ⟨n, hn1, hn2⟩ := List.mem_map.mp hm
      cases hn2
      have hpath : l.root.path = [] := (LNode.fromNpm_ok h3).1
      have gen : ∀ (ns : List (LNode V I)) (m r : IMap Str (LNode V I)), collectNodes (ns.map .ok) m = .ok r →
          (∃ n ∈ ns, n.path = []) ∨ ([] : Str) ∈ m.keys → ([] : Str) ∈ r.keys := by
        intro ns
        induction ns with
        | nil =>
          intro m r hc hh
          cases hc
          rcases hh with ⟨n, hn, _⟩ | hh
          · simp at hn
          · exact hh
        | cons a ns ih =>
          intro m r hc hh
          simp only [List.map_cons, collectNodes] at hc
          refine ih _ r hc ?_
          rcases hh with ⟨n, hn, hp⟩ | hh
          · rcases List.mem_cons.mp hn with rfl | hn
            · right
              rw [hp]
              exact IMap.mem_keys_of_mem (IMap.mem_of_get? (IMap.get?_insert_self m _ _))
            · exact Or.inl ⟨n, hn, hp⟩
          · right
            rw [IMap.keys_insert]
            split
            · exact hh
            · exact List.mem_append_left _ hh
      obtain ⟨p, hp1, hp2⟩ := List.mem_map.mp (gen ns [] _ h2 (Or.inl ⟨_, hn1, hpath⟩))
      exact ⟨p.2, by rw [← hp2]; exact hp1⟩
  obtain ⟨n, hmem⟩ := hkey
  have hall := he.2.2 _ hmem
  cases hq : l'.packages.get? [] with
  | none => rw [hq] at hall; cases hall
  | some n' =>
    obtain ⟨i, h0, hi, hln, hk⟩ := toLockfile_entry hl' (IMap.mem_of_get? hq)
    have hp := (lockNode_path hln).1
    refine joinPath_ne_nil ?_ (nodePath_ne_nil hg.folderTree hg.ord hi h0) (by rw [← hp]; exact hk.symm)
    intro x hx
    obtain ⟨j, nd, hj0, hj, rfl⟩ := nodePath_names hx
    exact hn j nd hj0 hj

/-- C12, what does survive: if every package is installed under its own name, the lockfile read back agrees with the
tree's in its version and in every package entry; only the root entry differs. -/
theorem C12_partial (hr : IsRoot env root) (h : RReach env lock root s)
    (hv : ∀ (i : Nat) (nd : Node Str P S), i ≠ 0 → s.graph.nodes[i]? = some nd → v.pkgName nd.pkg = nd.name)
    {l : Lockfile V I} (hl : toLockfile v s.graph = some l) :
    ∃ l', Lockfile.fromKdl c (l.toKdl c) = .ok l' ∧ l'.version = l.version ∧
      SameMap SameNode l'.packages l.packages := by
  have hg := (h.sinv hr).pinv.ginv
  have hp := toLockfile_proper hg.folderTree hg.ord hl
  refine ⟨_, Lockfile.fromKdl_toKdl c l hp, rfl, ?_⟩
  intro k
  simp only [IMap.get?_map (fun n : LNode V I => n.norm false), get?_sortKeys hp.wf.keys]
  cases hk : l.packages.get? k with
  | none => exact Or.inl ⟨rfl, rfl⟩
  | some n =>
    refine Or.inr ⟨_, n, rfl, rfl, ?_⟩
    obtain ⟨i, h0, hi, hln, _⟩ := toLockfile_entry hl (IMap.mem_of_get? hk)
    have hln : lockNode v s.graph i false = some n := hln
    have hpath := lockNode_path hln
    refine ⟨LNode.norm_entry (lockNode_wf hln) hpath.2.1 ?_ false, ?_, hpath.2.1.symm⟩
    · intro hnone; rw [hnone] at hpath; simp at hpath
    · have hx := List.getElem?_eq_getElem hi
      obtain ⟨p, _, hpar, _, _⟩ := hg.folderTree.listed i _ hx h0
      have hname : n.name = v.pkgName s.graph.nodes[i].pkg := by
        unfold lockNode at hln
        rw [hx] at hln; cases hln; rfl
      simp [LNode.norm, hpath.1, nodePath_inside hg.ord hx hpar, hname, hv i _ h0 hx]

/-! ## C13 -/

/-- C13. The lockfile of a resolved tree, written out and read back, has the same version, the same packages with the
same path, version, source, integrity and requirements, and the same root requirements. -/
theorem C13_roundtrip (hr : IsRoot env root) (h : RReach env lock root s)
    {l : Lockfile V I} (hl : toLockfile v s.graph = some l) :
    ∃ l', Lockfile.fromKdl c (l.toKdl c) = .ok l' ∧ l'.version = l.version ∧
      SameMap SameEntry l'.packages l.packages ∧
      l'.root.path = l.root.path ∧ l'.root.version = l.root.version ∧ SameReqs l'.root l.root := by
  have hg := (h.sinv hr).pinv.ginv
  have hp := toLockfile_proper hg.folderTree hg.ord hl
  refine ⟨_, Lockfile.fromKdl_toKdl c l hp, rfl, ?_, rfl, rfl, ?_⟩
  · intro k
    simp only [IMap.get?_map (fun n : LNode V I => n.norm false), get?_sortKeys hp.wf.keys]
    cases hk : l.packages.get? k with
    | none => exact Or.inl ⟨rfl, rfl⟩
    | some n =>
      refine Or.inr ⟨_, n, rfl, rfl, ?_⟩
      obtain ⟨i, h0, hi, hln, _⟩ := toLockfile_entry hl (IMap.mem_of_get? hk)
      have hln : lockNode v s.graph i false = some n := hln
      have hpath := lockNode_path hln
      exact LNode.norm_entry (lockNode_wf hln) hpath.2.1
        (fun hnone => by rw [hnone] at hpath; simp at hpath) false
  · exact LNode.norm_reqs hp.wf.root true

end

/-- C13 for arbitrary lockfiles (for example imported from npm): everything round-trips, provided that an entry with an
integrity also has a source. -/
theorem C13_any_lockfile {c : Codec V I} {l : Lockfile V I} (hp : l.Proper)
    (hi : ∀ p ∈ l.packages, p.2.resolved = none → p.2.integrity = none) :
    ∃ l', Lockfile.fromKdl c (l.toKdl c) = .ok l' ∧ l'.version = l.version ∧
      SameMap SameEntry l'.packages l.packages ∧
      l'.root.path = l.root.path ∧ l'.root.version = l.root.version ∧ SameReqs l'.root l.root := by
  refine ⟨_, Lockfile.fromKdl_toKdl c l hp, rfl, ?_, rfl, rfl, ?_⟩
  · intro k
    simp only [IMap.get?_map (fun n : LNode V I => n.norm false), get?_sortKeys hp.wf.keys]
    cases hk : l.packages.get? k with
    | none => exact Or.inl ⟨rfl, rfl⟩
    | some n =>
      have hm := IMap.mem_of_get? hk
      exact Or.inr ⟨_, n, rfl, rfl, LNode.norm_entry (hp.wf.nodes _ hm) (hp.entries _ hm).1 (hi _ hm) false⟩
  · exact LNode.norm_reqs hp.wf.root true

/-- The proviso of `C13_any_lockfile` is needed: an integrity without a source (as npm writes with
`omit-lockfile-registry-resolved`) is dropped on writing. -/
theorem C13_integrity_lost (c : Codec V I) (n : LNode V I) (hw : n.WF) (hp : n.path ≠ []) (hr : n.resolved = none) :
    ∃ n', LNode.fromKdl c (n.toKdl c) false = .ok n' ∧ n'.integrity = none :=
  ⟨_, LNode.fromKdl_toKdl c n false hw (Or.inr hp), by simp [LNode.norm, hr]⟩

/-- A version number of 2^63 or more makes the written lockfile unreadable. -/
theorem C13_version_range (c : Codec V I) {l : Lockfile V I} (h : 2 ^ 63 ≤ l.version)
    (h2 : l.version < 2 ^ 64) : ∀ l', Lockfile.fromKdl c (l.toKdl c) ≠ .ok l' := by
  intro l' hl
  have hv : (KDoc.getArg (l.toKdl c) kLockVersion).bind KVal.asInt = some (asI64 l.version) := by
    simp [KDoc.getArg, KDoc.get, Lockfile.toKdl, KNode.name, KNode.arg0, KNode.entries, KVal.asInt]
  have hneg : ¬ (0 ≤ asI64 l.version) := by
    unfold asI64
    rw [if_neg (by omega)]
    omega
  unfold Lockfile.fromKdl at hl
  rw [hv] at hl
  simp only [readVersion, if_neg hneg] at hl
  cases hc : collectNodes (((l.toKdl c).filter fun k => decide (k.name = kPkg)).map fun k => LNode.fromKdl c k false) [] with
  | error e => rw [hc] at hl; cases hl
  | ok m => rw [hc] at hl; cases hl

/-! ## C14 -/

/-- C14. Two lockfiles with the same contents are written as the same document, whatever the insertion order. -/
theorem C14_canonical (c : Codec V I) {a b : Lockfile V I} (ha : a.WF) (hb : b.WF) (h : SameLockfile a b) :
    a.toKdl c = b.toKdl c := Lockfile.toKdl_same c ha hb h

/-- C14, converse: lockfiles written as the same document have the same version, packages and root requirements. -/
theorem C14_faithful (c : Codec V I) {a b : Lockfile V I} (ha : a.Proper) (hb : b.Proper)
    (hia : ∀ p ∈ a.packages, p.2.resolved = none → p.2.integrity = none)
    (hib : ∀ p ∈ b.packages, p.2.resolved = none → p.2.integrity = none) (h : a.toKdl c = b.toKdl c) :
    a.version = b.version ∧ SameMap SameEntry a.packages b.packages ∧ SameReqs a.root b.root := by
  obtain ⟨la, h1, h2, h3, _, _, h4⟩ := C13_any_lockfile (c := c) ha hia
  obtain ⟨lb, g1, g2, g3, _, _, g4⟩ := C13_any_lockfile (c := c) hb hib
  rw [h, g1] at h1
  cases h1
  refine ⟨h2.symm.trans g2, ?_, fun ty k => (h4 ty k).symm.trans (g4 ty k)⟩
  intro k
  rcases h3 k with ⟨e1, e2⟩ | ⟨x, y, e1, e2, e3⟩
  · rcases g3 k with ⟨f1, f2⟩ | ⟨x', y', f1, f2, f3⟩
    · exact Or.inl ⟨e2, f2⟩
    · rw [e1] at f1; cases f1
  · rcases g3 k with ⟨f1, f2⟩ | ⟨x', y', f1, f2, f3⟩
    · rw [e1] at f1; cases f1
    · rw [e1] at f1; cases f1
      exact Or.inr ⟨y, y', e2, f2, e3.path.symm.trans f3.path, e3.version.symm.trans f3.version,
        e3.resolved.symm.trans f3.resolved, e3.integrity.symm.trans f3.integrity,
        fun ty k => (e3.reqs ty k).symm.trans (f3.reqs ty k)⟩

/-! ## C15 -/

section
variable {env : Env Str P S} {lock : Option (LockTree Str P)} {root : Node Str P S} {s : RState Str P S}
  {v : LockView P S V I}

/-- C15. The lockfile of a resolved tree has one entry per package other than the root: as many entries as packages,
each filed under its location; and the entry of a package records where it comes from and exactly its links, kind by
kind.  The root's entry records exactly the project's links. -/
theorem C15_one_entry_each (hr : IsRoot env root) (h : RReach env lock root s)
    (hv : ∀ i nd, i ≠ 0 → s.graph.nodes[i]? = some nd → ValidName nd.name)
    {l : Lockfile V I} (hl : toLockfile v s.graph = some l) :
    l.packages.length = s.graph.nodes.length - 1 ∧ l.packages.WF ∧
    (∀ (i : Nat) (nd : Node Str P S) (π : List Str), i ≠ 0 → s.graph.nodes[i]? = some nd → LocatedAt s.graph i π →
      ∃ n, l.packages.get? (joinPath π) = some n ∧ n.path = π ∧ n.name = v.pkgName nd.pkg ∧ Records n (v.resolved nd.pkg) ∧
        ∀ ty m raw, (n.section ty).get? m = some raw ↔
          ∃ e, Linked s.graph i m e ∧ e.ty = ty ∧ v.reqStr e.spec = raw) ∧
    ∀ ty m raw, (l.root.section ty).get? m = some raw ↔
      ∃ e, Linked s.graph 0 m e ∧ e.ty = ty ∧ v.reqStr e.spec = raw := by
  have hsections : ∀ (i : Nat) (b : Bool) (nd : Node Str P S) (n : LNode V I), s.graph.nodes[i]? = some nd →
      lockNode v s.graph i b = some n → ∀ ty m raw, (n.section ty).get? m = some raw ↔
        ∃ e, Linked s.graph i m e ∧ e.ty = ty ∧ v.reqStr e.spec = raw := by
    intro i b nd n hi hln ty m raw
    have hw := h.deps_wf hr i nd hi
    have hsec : n.section ty = linkGroup v s.graph nd ty := by
      simp only [lockNode, hi, Option.map_some, Option.some.injEq] at hln
      rw [← hln]
      cases ty <;> rfl
    rw [hsec, linkGroup_get? hw]
    constructor
    · rintro ⟨k, e, hk, he, ht, hraw⟩
      exact ⟨e, ⟨nd, k, hi, hk, he⟩, ht, hraw⟩
    · rintro ⟨e, ⟨nd', k, hi', hk, he⟩, ht, hraw⟩
      rw [hi] at hi'; cases hi'
      exact ⟨k, e, hk, he, ht, hraw⟩
  have hg := (h.sinv hr).pinv.ginv
  have hpk := toLockfile_packages hg.folderTree hg.ord hv hl
  have hwf := (toLockfile_root hl).2.2
  refine ⟨?_, hwf, ?_, ?_⟩
  · rw [hpk]
    have : ∀ l : List Nat, (∀ i ∈ l, i < s.graph.nodes.length) →
        (l.filterMap fun i => (lockNode v s.graph i false).map fun n => (joinPath n.path, n)).length = l.length := by
      intro l hl
      induction l with
      | nil => rfl
      | cons i l ih =>
        have hn := List.getElem?_eq_getElem (hl i (by simp))
        simp only [List.filterMap_cons, lockNode, hn, Option.map_some, List.length_cons,
          ← ih (fun j hj => hl j (List.mem_cons_of_mem _ hj))]
    rw [this _ (fun i hi => by simpa using (List.mem_filter.mp hi).1)]
    obtain ⟨nd, hn, _⟩ := hg.root
    have hpos := lt_of_get hn
    have hle : ∀ n, 0 < n → ((List.range n).filter (· ≠ 0)).length = n - 1 := by
      intro n hn
      obtain ⟨k, rfl⟩ : ∃ k, n = k + 1 := ⟨n - 1, by omega⟩
      rw [List.range_succ_eq_map]
      simp [List.filter_map, Function.comp_def]
    exact hle _ hpos
  · intro i nd π h0 hi hloc
    have hπ := ((locatedAt_iff hg.folderTree hg.ord).mp hloc).2
    cases hln : lockNode v s.graph i false with
    | none => simp [lockNode, hi] at hln
    | some n =>
      have hpath := (lockNode_path hln).1
      refine ⟨n, IMap.get?_of_mem hwf ?_, by rw [hpath, hπ], ?_, ?_, hsections i false nd n hi hln⟩
      · rw [hpk]
        refine List.mem_filterMap.mpr ⟨i, ?_, by rw [hln, Option.map_some, hpath, hπ]⟩
        simp [lt_of_get hi, h0]
      · simp only [lockNode, hi, Option.map_some, Option.some.injEq] at hln
        rw [← hln]
      · simp only [lockNode, hi, Option.map_some, Option.some.injEq] at hln
        rw [← hln]
        unfold Records
        cases v.resolved nd.pkg <;> exact ⟨rfl, rfl, rfl⟩
  · obtain ⟨nd, hn, _⟩ := hg.root
    exact hsections 0 true nd l.root hn (toLockfile_root hl).1

end

/-! ## C16 -/

open ExL in
/-- C16 is false of the code: a tree whose own lockfile, resolved again with the same manifest, gives another tree (the
nested n@2 is gone). -/
theorem C16_fails : IsRoot ExL.env ExL.root ∧ RReach ExL.env none ExL.root treeA ∧ treeA.done = true ∧
    toLockfile view treeA.graph = some lockA ∧
    RReach ExL.env (some (lockA.tree toPackage)) ExL.root treeB ∧ treeB.done = true ∧
    Installed treeA.graph [['e'], ['n']] (['n'], 2) ∧ ∀ p, ¬ Installed treeB.graph [['e'], ['n']] p := by
  refine ⟨root_ok, final_reach runA_ok, by decide +kernel, lockA_eq, final_reach runB_ok, by decide +kernel, ?_, ?_⟩
  · have hg := ((final_reach runA_ok).sinv root_ok).pinv.ginv
    exact ⟨2, { name := ['n'], pkg := (['n'], 2), reqs := [], parent := some 1 }, (locatedAt_iff hg.folderTree hg.ord).mpr
      ⟨⟨{ name := ['n'], pkg := (['n'], 2), reqs := [], parent := some 1 }, by decide +kernel⟩, by decide +kernel⟩,
      by decide +kernel, rfl⟩
  · rintro p' ⟨i, nd, hl, hn, _⟩
    have hg := ((final_reach runB_ok).sinv root_ok).pinv.ginv
    have hp := ((locatedAt_iff hg.folderTree hg.ord).mp hl).2
    have hlt : i < 3 := by
      have h1 := lt_of_get hn
      have h2 : treeB.graph.nodes.length = 3 := by decide +kernel
      exact h2 ▸ h1
    have : ∀ i < 3, treeB.graph.nodePath i ≠ [['e'], ['n']] := by decide +kernel
    exact this i hlt hp

/-! ## C17 -/

/-- Where a lockfile may come from, in order of preference; `none`: not supplied / not there / not readable /
not parseable. -/
def lockCandidates {α : Type} (parseKdl parseNpm : Str → Option α) (kdlLock npmLock : Option α)
    (files : Option (FileState × FileState × FileState)) : List (Option α) :=
  let read (parse : Str → Option α) (f : FileState) : Option α := match f with
    | .text s => parse s
    | .absent => none
    | .unreadable => none
  [kdlLock, npmLock] ++ match files with
    | some (kdl, json, shrinkwrap) => [read parseKdl kdl, read parseNpm json, read parseNpm shrinkwrap]
    | none => []

/-- C17. The lockfile used is the first one available in the order: supplied KDL, supplied npm, package-lock.kdl,
package-lock.json, npm-shrinkwrap.json; there is none exactly if none is available. -/
theorem C17_precedence {α : Type} (parseKdl parseNpm : Str → Option α) (kdlLock npmLock : Option α)
    (files : Option (FileState × FileState × FileState)) (r : Option α) :
    getLockfile parseKdl parseNpm kdlLock npmLock files = r ↔
      (∃ l pre post, r = some l ∧ lockCandidates parseKdl parseNpm kdlLock npmLock files = pre ++ some l :: post ∧
        ∀ x ∈ pre, x = none) ∨
      (r = none ∧ ∀ x ∈ lockCandidates parseKdl parseNpm kdlLock npmLock files, x = none) := by
  have hfs : getLockfile parseKdl parseNpm kdlLock npmLock files =
      (lockCandidates parseKdl parseNpm kdlLock npmLock files).findSome? id := by
    unfold getLockfile lockCandidates
    cases kdlLock <;> cases npmLock <;> simp
    rcases files with _ | ⟨a, b, d⟩
    · rfl
    · have ht : ∀ (p : Str → Option α) (f : FileState), (match f with
          | .text s => p s
          | .absent => none
          | .unreadable => none) = tryFile p f := by intro p f; cases f <;> rfl
      simp only [ht]
      cases tryFile parseKdl a <;> cases tryFile parseNpm b <;> cases tryFile parseNpm d <;> rfl
  rw [hfs]
  generalize lockCandidates parseKdl parseNpm kdlLock npmLock files = cs
  induction cs with
  | nil =>
    simp only [List.findSome?_nil]
    constructor
    · rintro rfl; exact Or.inr ⟨rfl, by simp⟩
    · rintro (⟨l, pre, post, rfl, hc, _⟩ | ⟨rfl, _⟩)
      · simp at hc
      · rfl
  | cons a cs ih =>
    cases a with
    | some l =>
      simp only [List.findSome?_cons, id]
      constructor
      · rintro rfl; exact Or.inl ⟨l, [], cs, rfl, rfl, by simp⟩
      · rintro (⟨l', pre, post, rfl, hc, hp⟩ | ⟨rfl, hall⟩)
        · cases pre with
          | nil => simp at hc; rw [hc.1]
          | cons b pre =>
            simp only [List.cons_append, List.cons.injEq] at hc
            have := hp b (by simp)
            rw [← hc.1] at this; cases this
        · have := hall (some l) (by simp); cases this
    | none =>
      have hstep : List.findSome? id (none :: cs) = List.findSome? id cs := rfl
      rw [hstep]; refine Iff.trans ih ?_
      constructor
      · rintro (⟨l, pre, post, rfl, hc, hp⟩ | ⟨rfl, hall⟩)
        · exact Or.inl ⟨l, none :: pre, post, rfl, by rw [hc]; rfl, by simpa using hp⟩
        · exact Or.inr ⟨rfl, by simpa using hall⟩
      · rintro (⟨l, pre, post, rfl, hc, hp⟩ | ⟨rfl, hall⟩)
        · cases pre with
          | nil => simp at hc
          | cons b pre =>
            simp only [List.cons_append, List.cons.injEq] at hc
            exact Or.inl ⟨l, pre, post, rfl, hc.2, fun x hx => hp x (List.mem_cons_of_mem _ hx)⟩
        · exact Or.inr ⟨rfl, fun x hx => hall x (List.mem_cons_of_mem _ hx)⟩

/-! ## C18 -/

/-- C18 for lockfiles all of whose entries are in `node_modules` folders: each entry becomes exactly one entry at the
same location (arbitrarily nested, scoped or not), with the same version, source, integrity and dependency maps. -/
theorem C18_import_partial {c : Codec V I} {ver : Option Nat} {pk : IMap Str NpmEntry} {l : Lockfile V I}
    (hw : pk.WF) (hk : ∀ p ∈ pk, ∃ π, p.1 = npmKey π ∧ ∀ n ∈ π, NpmName n)
    (h : Lockfile.fromNpm c ver pk = .ok l) :
    l.packages.length = pk.length ∧ l.packages.WF ∧
    ∀ π e, (∀ n ∈ π, NpmName n) → pk.get? (npmKey π) = some e →
      ∃ n, l.packages.get? (joinPath π) = some n ∧ n.path = π ∧ n.resolved = e.resolved ∧
        n.version = e.version.bind c.parseV ∧ (n.version = none → e.version = none) ∧
        n.integrity = e.integrity.bind c.parseI ∧ (n.integrity = none → e.integrity = none) ∧
        n.deps = e.deps ∧ n.devDeps = e.devDeps ∧ n.optDeps = e.optDeps ∧ n.peerDeps = e.peerDeps := by
  obtain ⟨ns, h1, h2⟩ := Lockfile.fromNpm_packages hw hk h
  have hwf : l.packages.WF := by
    obtain ⟨ns', _, hc, _⟩ := Lockfile.fromNpm_ok h
    have gen : ∀ (ns : List (LNode V I)) (m r : IMap Str (LNode V I)), m.WF → collectNodes (ns.map .ok) m = .ok r → r.WF := by
      intro ns
      induction ns with
      | nil => intro m r hm hc; cases hc; exact hm
      | cons a ns ih => intro m r hm hc; exact ih _ r (IMap.wf_insert hm _ _) hc
    exact gen ns' [] _ IMap.wf_nil hc
  refine ⟨?_, hwf, ?_⟩
  · have := congrArg List.length h1
    simp only [List.length_map] at this
    rw [h2, List.length_map, this]
  · intro π e hπ he
    have hm : LNode.fromNpm c (npmKey π) e ∈ ns.map Except.ok := by
      rw [← h1]; exact List.mem_map.mpr ⟨_, IMap.mem_of_get? he, rfl⟩
    obtain ⟨n, hn, hf⟩ := List.mem_map.mp hm
    obtain ⟨f1, _, f3, f4, f5, _, f7, f8, f9, f10⟩ := LNode.fromNpm_ok hf.symm
    rw [npmPath_key hπ] at f1
    refine ⟨n, IMap.get?_of_mem hwf ?_, f1, f3, (parseOpt_ok f4).1, (parseOpt_ok f4).2, (parseOpt_ok f5).1,
      (parseOpt_ok f5).2, f7, f8, f9, f10⟩
    rw [h2]
    exact List.mem_map.mpr ⟨n, hn, by rw [f1]⟩

/-- The full C18 is false of the code: in an npm lockfile with a workspace folder, the workspace's entry is imported as
another "root" and overwrites the project's own entry. -/
theorem C18_workspace_fails : ∃ (pk : IMap Str NpmEntry) (l : Lockfile Nat Nat), pk.WF ∧ pk.length = 2 ∧
    Lockfile.fromNpm ExL.codec (some 3) pk = .ok l ∧ l.packages.length = 1 ∧
    ∃ n, l.packages.get? [] = some n ∧ n.name = "w".toList ∧ n.isRoot = true := by
  refine ⟨[([], { name := some "p".toList }), ("libs/w".toList, { name := some "w".toList })],
    (match Lockfile.fromNpm ExL.codec (some 3)
      [([], { name := some "p".toList }), ("libs/w".toList, { name := some "w".toList })] with
      | .ok l => l
      | .error _ => ⟨0, ⟨[], true, [], none, none, none, [], [], [], []⟩, []⟩), by unfold IMap.WF; decide, rfl, ?_, ?_, ?_⟩
  · rfl
  · decide +kernel
  · exact ⟨_, rfl, by decide +kernel, by decide +kernel⟩

/-! ## which documents are lockfiles -/

/-- the text that a child of an entry has as its first argument -/
def KNode.textOf (k : KNode) (field : Str) : Option Str := (KDoc.getArg (k.children.getD []) field).bind KVal.asStr

/-- an entry whose integrity and version, where they are given, can be read -/
def EntryFine (c : Codec V I) (k : KNode) : Prop :=
  (∀ t, k.textOf kIntegrity = some t → c.parseI t ≠ none) ∧ (∀ t, k.textOf kVersion = some t → c.parseV t ≠ none)

theorem parseOpt_fine {α : Type} {parse : Str → Option α} {e : LockErr} {o : Option Str} :
    (∃ x, parseOpt parse e o = .ok x) ↔ ∀ t, o = some t → parse t ≠ none := by
  cases o with
  | none => simp [parseOpt]
  | some t =>
    simp only [parseOpt, Option.some.injEq, forall_eq']
    cases parse t <;> simp

theorem entry_ok {c : Codec V I} {k : KNode} {r : Bool} : (∃ n, LNode.fromKdl c k r = .ok n) ↔
    (r = true ∨ ∃ t, (none, KVal.str t) ∈ k.entries) ∧ EntryFine c k := by
  have hname : (∃ x, readName r (k.entries.filterMap fun e => if e.1.isNone then e.2.asStr else none) = .ok x) ↔
      (r = true ∨ ∃ t, (none, KVal.str t) ∈ k.entries) := by
    have hmem : (∃ t, (none, KVal.str t) ∈ k.entries) ↔
        (k.entries.filterMap fun e => if e.1.isNone then e.2.asStr else none) ≠ [] := by
      constructor
      · rintro ⟨t, ht⟩ hn
        have : t ∈ k.entries.filterMap fun e => if e.1.isNone then e.2.asStr else none :=
          List.mem_filterMap.2 ⟨_, ht, rfl⟩
        rw [hn] at this; cases this
      · intro hn
        obtain ⟨t, ht⟩ := List.exists_mem_of_ne_nil _ hn
        obtain ⟨⟨a, b⟩, hb, he⟩ := List.mem_filterMap.1 ht
        cases a with
        | some a => simp at he
        | none =>
          cases b <;> simp [KVal.asStr] at he
          subst he; exact ⟨_, hb⟩
    rw [hmem]
    unfold readName
    cases r with
    | true => simp
    | false =>
      simp only [Bool.false_eq_true, ↓reduceIte, false_or]
      cases hg : (k.entries.filterMap fun e => if e.1.isNone then e.2.asStr else none).getLast? with
      | none =>
        rw [List.getLast?_eq_none_iff] at hg
        constructor
        · rintro ⟨x, hx⟩; cases hx
        · intro h; exact absurd hg h
      | some t =>
        constructor
        · intro _ hn; rw [hn] at hg; simp at hg
        · intro _; exact ⟨t, rfl⟩
  rw [← hname]
  unfold EntryFine
  rw [← parseOpt_fine (e := .badIntegrity), ← parseOpt_fine (e := .badSemver)]
  unfold LNode.fromKdl KNode.textOf
  constructor
  · rintro ⟨n, hn⟩
    cases h1 : readName r (k.entries.filterMap fun e => if e.1.isNone then e.2.asStr else none) with
    | error e => simp only [h1] at hn; cases hn
    | ok x =>
      cases h2 : parseOpt c.parseI .badIntegrity ((KDoc.getArg (k.children.getD []) kIntegrity).bind KVal.asStr) with
      | error e => simp only [h1, h2] at hn; cases hn
      | ok y =>
        cases h3 : parseOpt c.parseV .badSemver ((KDoc.getArg (k.children.getD []) kVersion).bind KVal.asStr) with
        | error e => simp only [h1, h2, h3] at hn; cases hn
        | ok z => exact ⟨⟨x, rfl⟩, ⟨y, rfl⟩, ⟨z, rfl⟩⟩
  · rintro ⟨⟨x, h1⟩, ⟨y, h2⟩, ⟨z, h3⟩⟩
    simp only [h1, h2, h3]
    exact ⟨_, rfl⟩

theorem collect_ok : ∀ (l : List (Except LockErr (LNode V I))) (m : IMap Str (LNode V I)),
    (∃ r, collectNodes l m = .ok r) ↔ ∀ x ∈ l, ∃ n, x = .ok n
  | [], m => by simp [collectNodes]
  | .error e :: l, m => by simp [collectNodes]
  | .ok n :: l, m => by
    simp only [collectNodes, List.mem_cons, forall_eq_or_imp]
    rw [collect_ok l]
    simp

/-- C17, which documents are taken for lockfiles: exactly those with a root entry, with a path for every package, with
integrities and versions that can be read, and without a negative lockfile version. -/
theorem C17_readable (c : Codec V I) (doc : KDoc) : (∃ l, Lockfile.fromKdl c doc = .ok l) ↔
    (∀ k ∈ doc, k.name = kPkg → (∃ t, (none, KVal.str t) ∈ k.entries) ∧ EntryFine c k) ∧
    (∀ i, (KDoc.getArg doc kLockVersion).bind KVal.asInt = some i → 0 ≤ i) ∧
    (∃ r, KDoc.get doc kRoot = some r ∧ EntryFine c r) := by
  have h1 : (∃ x, collectNodes ((doc.filter fun k => decide (k.name = kPkg)).map fun k => LNode.fromKdl c k false) [] = .ok x) ↔
      ∀ k ∈ doc, k.name = kPkg → (∃ t, (none, KVal.str t) ∈ k.entries) ∧ EntryFine c k := by
    rw [collect_ok]
    simp only [List.mem_map, List.mem_filter, decide_eq_true_eq, forall_exists_index, and_imp]
    constructor
    · intro h k hk hn
      obtain ⟨n, hn'⟩ := h _ k hk hn rfl
      have := (entry_ok (c := c) (k := k) (r := false)).1 ⟨n, hn'⟩
      simpa using this
    · intro h x k hk hn hx
      subst hx
      exact entry_ok.2 (by simpa using h k hk hn)
  have h2 : (∃ x, readVersion ((KDoc.getArg doc kLockVersion).bind KVal.asInt) 1 = .ok x) ↔
      ∀ i, (KDoc.getArg doc kLockVersion).bind KVal.asInt = some i → 0 ≤ i := by
    cases (KDoc.getArg doc kLockVersion).bind KVal.asInt with
    | none => simp [readVersion]
    | some i =>
      simp only [readVersion, Option.some.injEq, forall_eq']
      by_cases hi : 0 ≤ i <;> simp [hi]
  have h3 : (∃ x, readRoot c (KDoc.get doc kRoot) = .ok x) ↔ ∃ r, KDoc.get doc kRoot = some r ∧ EntryFine c r := by
    cases KDoc.get doc kRoot with
    | none => simp [readRoot]
    | some r =>
      simp only [readRoot, entry_ok, Option.some.injEq, true_or, true_and, exists_eq_left']
  rw [← h1, ← h2, ← h3]
  unfold Lockfile.fromKdl
  constructor
  · rintro ⟨l, hl⟩
    cases e1 : collectNodes ((doc.filter fun k => decide (k.name = kPkg)).map fun k => LNode.fromKdl c k false) [] with
    | error e => simp only [e1] at hl; cases hl
    | ok x =>
      cases e2 : readVersion ((KDoc.getArg doc kLockVersion).bind KVal.asInt) 1 with
      | error e => simp only [e1, e2] at hl; cases hl
      | ok y =>
        cases e3 : readRoot c (KDoc.get doc kRoot) with
        | error e => simp only [e1, e2, e3] at hl; cases hl
        | ok z => exact ⟨⟨x, rfl⟩, ⟨y, rfl⟩, ⟨z, rfl⟩⟩
  · rintro ⟨⟨x, e1⟩, ⟨y, e2⟩, ⟨z, e3⟩⟩
    simp only [e1, e2, e3]
    exact ⟨_, rfl⟩

/-- `C17_readable`: a document with only a root is read; one with a package without a path is not -/
example : (∃ l, Lockfile.fromKdl ExL.codec [.mk kRoot [] none] = .ok l) ∧
    ¬ ∃ l, Lockfile.fromKdl ExL.codec [.mk kRoot [] none, .mk kPkg [] none] = .ok l := by
  refine ⟨(C17_readable _ _).2 ⟨?_, ?_, ⟨_, rfl, ?_, ?_⟩⟩, fun h => ?_⟩
  · intro k hk hn
    simp only [List.mem_singleton] at hk
    subst hk
    exact absurd hn (by decide +kernel)
  · intro i hi; cases hi
  · intro t ht; cases ht
  · intro t ht; cases ht
  · obtain ⟨⟨t, ht⟩, _⟩ := ((C17_readable _ _).1 h).1 (.mk kPkg [] none) (by simp) rfl
    cases ht

/-! ## Non-vacuity -/

open ExL in
/-- C11–C15 apply to a finished resolve with a nested package: `e`, `e/node_modules/n` and `n`. -/
example : IsRoot ExL.env ExL.root ∧ RReach ExL.env none ExL.root treeA ∧ toLockfile view treeA.graph = some lockA ∧
    lockA.packages.keys = ["e".toList, "e/node_modules/n".toList, "n".toList] ∧
    (∀ i < treeA.graph.nodes.length, ∀ nd ∈ treeA.graph.nodes[i]?, i ≠ 0 → '/' ∉ nd.name ∧ nd.name.head? ≠ some '@' ∧
      view.pkgName nd.pkg = nd.name) :=
  ⟨root_ok, final_reach runA_ok, lockA_eq, by decide +kernel, by decide +kernel⟩

open ExL in
/-- C11's equivalence is not always false: a tree is accepted with its own lockfile (before writing it out). -/
example : finish view true (some lockA) treeA.graph = some treeA.graph := by
  refine (C11_locked root_ok (final_reach runA_ok) (toLockfile_wf lockA_eq) _).mpr ⟨rfl, lockA, lockA_eq, ?_⟩
  refine ⟨rfl, ⟨⟨rfl, rfl, rfl, rfl, fun _ _ => rfl⟩, rfl, rfl⟩, ?_⟩
  intro k
  cases h : lockA.packages.get? k with
  | none => exact Or.inl ⟨rfl, rfl⟩
  | some n => exact Or.inr ⟨n, n, rfl, rfl, ⟨rfl, rfl, rfl, rfl, fun _ _ => rfl⟩, rfl, rfl⟩

/-- C18's hypotheses are met by a lockfile with a nested scoped package. -/
example : (∀ n ∈ ["a".toList, "@s/b".toList], NpmName n) ∧
    npmKey ["a".toList, "@s/b".toList] = "node_modules/a/node_modules/@s/b".toList ∧
    (match Lockfile.fromNpm ExL.codec none [([], {}), (npmKey ["a".toList, "@s/b".toList], {})] with
      | .ok l => decide (l.packages.keys = [[], "a/node_modules/@s/b".toList])
      | .error _ => false) = true := by
  refine ⟨?_, by decide +kernel, by decide +kernel⟩
  intro n hn
  simp only [List.mem_cons, List.not_mem_nil, or_false] at hn
  rcases hn with rfl | rfl
  · exact ⟨by decide, Or.inl ⟨by decide, by decide⟩⟩
  · exact ⟨by decide, Or.inr ⟨['s'], ['b'], by decide, by decide, by decide, by decide⟩⟩

/-- C13's proviso fails for, e.g., an npm entry with integrity only. -/
example : (LNode.mk ['a'] false [['a']] none (some 1) (some 2) [] [] [] [] : LNode Nat Nat).WF := by
  intro ty; cases ty <;> exact IMap.wf_nil

end Oro
