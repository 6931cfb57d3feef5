import Verif.Proofs.LockGraph
/- Importing npm lockfiles. -/

set_option linter.unusedSectionVars false

namespace Oro
variable {V I : Type}

theorem collectNodes_all {l : List (Except LockErr (LNode V I))} {m r : IMap Str (LNode V I)}
    (h : collectNodes l m = .ok r) : ∃ ns : List (LNode V I), l = ns.map .ok := by
  induction l generalizing m with
  | nil => exact ⟨[], rfl⟩
  | cons a l ih =>
    cases a with
    | error e => simp [collectNodes] at h
    | ok n =>
      simp only [collectNodes] at h
      obtain ⟨ns, rfl⟩ := ih h
      exact ⟨n :: ns, rfl⟩

theorem NpmName.valid {n : Str} (h : NpmName n) : ValidName n := by
  obtain ⟨_, h | ⟨s, t, h1, h2, h3, _⟩⟩ := h
  · exact Or.inl h
  · exact Or.inr ⟨s, t, h1, h2, h3⟩

theorem joinPath_ne_nil {p : List Str} (h : ∀ n ∈ p, n ≠ []) (h0 : p ≠ []) : joinPath p ≠ [] := by
  cases p with
  | nil => exact absurd rfl h0
  | cons a p =>
    rw [joinPath_cons]
    intro hc
    exact h a (by simp) (List.append_eq_nil_iff.mp hc).1

theorem joinPath_inj_npm {p q : List Str} (hp : ∀ n ∈ p, NpmName n) (hq : ∀ n ∈ q, NpmName n)
    (h : joinPath p = joinPath q) : p = q := by
  by_cases h0 : p = []
  · subst h0
    by_contra hc
    exact joinPath_ne_nil (fun n hn => (hq n hn).1) (Ne.symm hc) h.symm
  · by_cases h1 : q = []
    · subst h1; exact absurd h (joinPath_ne_nil (fun n hn => (hp n hn).1) h0)
    · exact joinPath_inj (fun n hn => (hp n hn).valid) (fun n hn => (hq n hn).valid) h0 h1 h

theorem npmPath_key {π : List Str} (h : ∀ n ∈ π, NpmName n) : npmPath (npmKey π) = π := by
  by_cases h0 : π = []
  · subst h0; exact npmPath_nil
  · exact npmPath_npmKey h h0

/-- fields of an imported entry -/
theorem LNode.fromNpm_ok {c : Codec V I} {key : Str} {e : NpmEntry} {n : LNode V I}
    (h : LNode.fromNpm c key e = .ok n) : n.path = npmPath key ∧ n.isRoot = (npmPath key).isEmpty ∧
      n.resolved = e.resolved ∧ parseOpt c.parseV .badSemver e.version = .ok n.version ∧
      parseOpt c.parseI .badIntegrity e.integrity = .ok n.integrity ∧ npmName key e.name (npmPath key) = .ok n.name ∧
      n.deps = e.deps ∧ n.devDeps = e.devDeps ∧ n.optDeps = e.optDeps ∧ n.peerDeps = e.peerDeps := by
  unfold LNode.fromNpm at h
  simp only at h
  cases hn : npmName key e.name (npmPath key) with
  | error x => rw [hn] at h; cases h
  | ok nm =>
    cases hi : parseOpt c.parseI .badIntegrity e.integrity with
    | error x => rw [hn, hi] at h; cases h
    | ok i =>
      cases hv : parseOpt c.parseV .badSemver e.version with
      | error x => rw [hn, hi, hv] at h; cases h
      | ok ver =>
        rw [hn, hi, hv] at h
        cases h
        exact ⟨rfl, rfl, rfl, rfl, rfl, rfl, rfl, rfl, rfl, rfl⟩

theorem parseOpt_ok {α : Type} {parse : Str → Option α} {e : LockErr} {s : Option Str} {r : Option α}
    (h : parseOpt parse e s = .ok r) : r = s.bind parse ∧ (r = none → s = none) := by
  cases s with
  | none => cases h; exact ⟨rfl, fun _ => rfl⟩
  | some s =>
    simp only [parseOpt] at h
    cases hp : parse s with
    | none => rw [hp] at h; cases h
    | some v => rw [hp] at h; cases h; exact ⟨by simp [hp], by simp⟩

theorem Lockfile.fromNpm_ok {c : Codec V I} {ver : Option Nat} {pk : IMap Str NpmEntry} {l : Lockfile V I}
    (h : Lockfile.fromNpm c ver pk = .ok l) :
    ∃ (ns : List (LNode V I)), (pk.map fun p => LNode.fromNpm c p.1 p.2) = ns.map .ok ∧
      collectNodes (ns.map .ok) [] = .ok l.packages ∧ npmRoot c (pk.get? []) = .ok l.root ∧ l.version = ver.getD 3 := by
  unfold Lockfile.fromNpm at h
  cases hc : collectNodes (pk.map fun p => LNode.fromNpm c p.1 p.2) [] with
  | error x => rw [hc] at h; cases h
  | ok pkgs =>
    cases hr : npmRoot c (pk.get? []) with
    | error x => rw [hc, hr] at h; cases h
    | ok root =>
      rw [hc, hr] at h
      cases h
      obtain ⟨ns, hns⟩ := collectNodes_all hc
      exact ⟨ns, hns, by rw [← hns, hc], rfl, rfl⟩

/-- import of well-shaped npm lockfiles: one entry per entry, in order -/
theorem Lockfile.fromNpm_packages {c : Codec V I} {ver : Option Nat} {pk : IMap Str NpmEntry} {l : Lockfile V I}
    (hw : pk.WF) (hk : ∀ p ∈ pk, ∃ π, p.1 = npmKey π ∧ ∀ n ∈ π, NpmName n)
    (h : Lockfile.fromNpm c ver pk = .ok l) :
    ∃ (ns : List (LNode V I)), (pk.map fun p => LNode.fromNpm c p.1 p.2) = ns.map .ok ∧
      l.packages = ns.map fun n => (joinPath n.path, n) := by
  obtain ⟨ns, h1, h2, h3, h4⟩ := Lockfile.fromNpm_ok h
  refine ⟨ns, h1, ?_⟩
  have hwf : IMap.WF (ns.map fun n => (joinPath n.path, n)) := by
    clear h2 h h3 h4
    unfold IMap.WF IMap.keys at hw ⊢
    induction pk generalizing ns with
    | nil =>
      cases ns with
      | nil => simp
      | cons _ _ => simp at h1
    | cons p pk ih =>
      cases ns with
      | nil => simp at h1
      | cons n ns =>
        simp only [List.map_cons, List.cons.injEq] at h1
        simp only [List.map_cons, List.nodup_cons] at hw ⊢
        refine ⟨?_, ih hw.2 (fun p hp => hk p (List.mem_cons_of_mem _ hp)) ns h1.2⟩
        intro hc
        obtain ⟨⟨k, n'⟩, hn', hkk⟩ := List.mem_map.mp hc
        obtain ⟨n2, hn2, he⟩ := List.mem_map.mp hn'
        cases he
        have hm2 : (Except.ok n' : Except LockErr (LNode V I)) ∈ ns.map .ok := List.mem_map_of_mem hn2
        rw [← h1.2] at hm2
        obtain ⟨p', hp', hf⟩ := List.mem_map.mp hm2
        obtain ⟨π, hπ, hπn⟩ := hk p (by simp)
        obtain ⟨π', hπ', hπn'⟩ := hk p' (List.mem_cons_of_mem _ hp')
        have e1 := (LNode.fromNpm_ok h1.1).1
        have e2 := (LNode.fromNpm_ok hf).1
        rw [hπ, npmPath_key hπn] at e1
        rw [hπ', npmPath_key hπn'] at e2
        simp only [e1, e2] at hkk
        have := joinPath_inj_npm hπn' hπn hkk
        subst this
        exact hw.1 (List.mem_map.mpr ⟨p', hp', by rw [hπ', hπ]⟩)
  have := collectNodes_ok ns [] (by simpa using hwf)
  rw [h2] at this
  simpa using this

end Oro
