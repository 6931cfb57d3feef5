import Verif.Props.Agree
import Verif.Spec.Torn
/- C101: a lockfile whose writing was interrupted. -/

set_option linter.unusedSectionVars false

namespace Oro
variable {V I : Type}

theorem collectNodes_run (l : List (LNode V I)) (m : IMap Str (LNode V I)) (r : List (Except LockErr (LNode V I)))
    (h : IMap.WF (m ++ l.map fun n => (joinPath n.path, n))) :
    collectNodes (l.map .ok ++ r) m = collectNodes r (m ++ l.map fun n => (joinPath n.path, n)) := by
  induction l generalizing m with
  | nil => simp
  | cons a l ih =>
    have h1 : joinPath a.path ∉ IMap.keys m := by
      simp only [IMap.WF, IMap.keys, List.map_append, List.map_cons] at h
      intro hc
      exact (List.nodup_append.mp h).2.2 _ hc _ (List.mem_cons_self) rfl
    simp only [List.map_cons, List.cons_append, collectNodes]
    rw [IMap.insert_of_notMem _ h1, ih _ (by simpa using h)]
    simp

/-- what reading a lockfile does with the packages -/
theorem fromKdl_packages {c : Codec V I} {doc : KDoc} {l : Lockfile V I} (h : Lockfile.fromKdl c doc = .ok l) :
    collectNodes ((doc.filter fun k => decide (k.name = kPkg)).map fun k => LNode.fromKdl c k false) [] = .ok l.packages := by
  unfold Lockfile.fromKdl at h
  cases hc : collectNodes ((doc.filter fun k => decide (k.name = kPkg)).map fun k => LNode.fromKdl c k false) [] with
  | error e => rw [hc] at h; cases h
  | ok m =>
    rw [hc] at h
    cases hv : readVersion ((KDoc.getArg doc kLockVersion).bind KVal.asInt) 1 with
    | error e => rw [hv] at h; cases h
    | ok v =>
      rw [hv] at h
      cases hr : readRoot c (KDoc.get doc kRoot) with
      | error e => rw [hr] at h; cases h
      | ok r => rw [hr] at h; cases h; rfl

/-- a node without a block reads as an entry that says nothing -/
theorem blank_of_stub {c : Codec V I} {s : KNode} {b : Bool} {n : LNode V I} (hs : s.children = none) (h : LNode.fromKdl c s b = .ok n) :
    Blank n := by
  unfold LNode.fromKdl at h
  rw [hs] at h
  dsimp only at h
  cases hr : readName b (s.entries.filterMap fun e => if e.1.isNone then e.2.asStr else none) with
  | error e => rw [hr] at h; cases h
  | ok nm =>
    rw [hr] at h
    cases h
    exact ⟨rfl, rfl, rfl, fun ty => by cases ty <;> rfl⟩

/-- the packages of a written lockfile -/
theorem pkg_nodes {c : Codec V I} {l : Lockfile V I} (h : l.Proper) :
    (l.toKdl c).filter (fun k => decide (k.name = kPkg)) = (sortKeys l.packages).map fun p => p.2.toKdl c := by
  have hroot : (l.root.toKdl c).name = kRoot := by rw [pkg_of_toKdl, h.isRoot]; rfl
  unfold Lockfile.toKdl
  rw [List.filter_cons_of_neg (by simp only [KNode.name]; exact (by decide : ¬ decide (kLockVersion = kPkg) = true)),
    List.filter_cons_of_neg (by rw [hroot]; decide)]
  refine List.filter_eq_self.mpr ?_
  intro k hk
  obtain ⟨p, hp, rfl⟩ := List.mem_map.mp hk
  rw [pkg_of_toKdl, (h.entries p ((sortKeys_perm _).mem_iff.mp hp)).1]; rfl

/-- the package nodes of what is left: some from the front, and perhaps a stub -/
theorem torn_filter {doc t : KDoc} {f : KNode → Bool} (h : Torn doc t) :
    ∃ n, t.filter f = (doc.filter f).take n ∨ ∃ s : KNode, s.children = none ∧ t.filter f = (doc.filter f).take n ++ [s] := by
  cases h with
  | after n =>
    have : (doc.take n).filter f <+: doc.filter f := (List.take_prefix n doc).filter f
    exact ⟨_, .inl (List.prefix_iff_eq_take.1 this)⟩
  | @within front rest k s hd hs =>
    have hp : front.filter f <+: doc.filter f := by rw [hd]; exact (List.prefix_append _ _).filter f
    have he := List.prefix_iff_eq_take.1 hp
    refine ⟨(front.filter f).length, ?_⟩
    rw [List.filter_append, ← he]
    cases hf : f s with
    | false => left; simp [hf]
    | true => right; exact ⟨s, hs.block, by simp [hf]⟩

section
variable {c : Codec V I} {l l0 l' : Lockfile V I} {t : KDoc}

/-- what is read from a torn lockfile, as a list -/
theorem torn_packages (h : l.Proper) (ht : Torn (l.toKdl c) t) (h0 : Lockfile.fromKdl c (l.toKdl c) = .ok l0)
    (h1 : Lockfile.fromKdl c t = .ok l') : IMap.WF l0.packages ∧ (∀ p ∈ l0.packages, p.1 = joinPath p.2.path) ∧
    ∃ n, l'.packages = l0.packages.take n ∨ ∃ b, Blank b ∧ l'.packages = IMap.insert (l0.packages.take n) (joinPath b.path) b := by
  rw [Lockfile.fromKdl_toKdl c l h] at h0
  cases h0
  have hent : ∀ p ∈ sortKeys l.packages, p.2.isRoot = false ∧ p.2.path ≠ [] ∧ p.1 = joinPath p.2.path :=
    fun p hp => h.entries p ((sortKeys_perm _).mem_iff.mp hp)
  have hwf := sortKeys_wf h.wf.keys
  have hwf' : IMap.WF ((sortKeys l.packages).map fun p => (p.1, p.2.norm false)) := IMap.wf_map (f := fun n => n.norm false) hwf
  refine ⟨hwf', ?_, ?_⟩
  · intro p hp
    obtain ⟨q, hq, rfl⟩ := List.mem_map.1 hp
    exact (hent q hq).2.2
  · have h2 := fromKdl_packages h1
    obtain ⟨n, hn⟩ := torn_filter (f := fun k => decide (k.name = kPkg)) ht
    rw [pkg_nodes h, ← List.map_take] at hn
    have hread : (((sortKeys l.packages).take n).map fun p => p.2.toKdl c).map (fun k => LNode.fromKdl c k false) =
        (((sortKeys l.packages).take n).map fun p => p.2.norm false).map .ok := by
      simp only [List.map_map]
      refine List.map_congr_left fun p hp => ?_
      have hp := List.mem_of_mem_take hp
      exact LNode.fromKdl_toKdl c p.2 false (h.wf.nodes p ((sortKeys_perm _).mem_iff.mp hp)) (Or.inr (hent p hp).2.1)
    have hkeys : (((sortKeys l.packages).take n).map fun p => p.2.norm false).map (fun n => (joinPath n.path, n)) =
        ((sortKeys l.packages).map fun p => (p.1, p.2.norm false)).take n := by
      rw [← List.map_take, List.map_map]
      refine List.map_congr_left fun p hp => ?_
      simp only [Function.comp, LNode.norm, (hent p (List.mem_of_mem_take hp)).2.2]
    have hw : IMap.WF (((sortKeys l.packages).map fun p => (p.1, p.2.norm false)).take n) := by
      unfold IMap.WF IMap.keys at hwf' ⊢
      rw [List.map_take]
      exact hwf'.sublist (List.take_sublist _ _)
    refine ⟨n, ?_⟩
    rcases hn with hn | ⟨s, hs, hn⟩
    · left
      rw [hn, hread, ← List.append_nil (List.map _ _), collectNodes_run _ [] [] (by rw [List.nil_append, hkeys]; exact hw), hkeys] at h2
      simp only [collectNodes, List.nil_append, Except.ok.injEq] at h2
      exact h2.symm
    · right
      rw [hn, List.map_append, hread, collectNodes_run _ [] _ (by rw [List.nil_append, hkeys]; exact hw), hkeys] at h2
      simp only [List.map_cons, List.map_nil, List.nil_append] at h2
      cases hr : LNode.fromKdl c s false with
      | error e => rw [hr] at h2; cases h2
      | ok b =>
        rw [hr] at h2
        simp only [collectNodes, Except.ok.injEq] at h2
        exact ⟨b, blank_of_stub hs hr, h2.symm⟩

theorem get?_take {K W : Type} [DecidableEq K] {m : IMap K W} (hw : IMap.WF m) {n : Nat} {k : K} {x : W}
    (h : IMap.get? (m.take n) k = some x) : m.get? k = some x :=
  IMap.get?_of_mem hw (List.mem_of_mem_take (IMap.mem_of_get? h))

/-- **C101**: of a lockfile whose writing was interrupted, each entry that is read is an entry of the lockfile that was to be
written, at the same location – or says nothing. -/
theorem C101_entries (h : l.Proper) (ht : Torn (l.toKdl c) t) (h0 : Lockfile.fromKdl c (l.toKdl c) = .ok l0)
    (h1 : Lockfile.fromKdl c t = .ok l') {key : Str} {n : LNode V I} (hn : l'.packages.get? key = some n) :
    l0.packages.get? key = some n ∨ Blank n := by
  obtain ⟨hw, _, k, h2 | ⟨b, hb, h2⟩⟩ := torn_packages h ht h0 h1
  · rw [h2] at hn; exact .inl (get?_take hw hn)
  · rw [h2, IMap.get?_insert] at hn
    split at hn
    · cases hn; exact .inr hb
    · exact .inl (get?_take hw hn)

/-- **C101**: as long as not even the project's own entry has been started, what is left is no lockfile. -/
theorem C101_started (ht : Torn (l.toKdl c) t) (hlen : t.length ≤ 1) : Lockfile.fromKdl c t ≠ .ok l' := by
  have key : ∀ s ∈ t, s.name ≠ kRoot := by
    cases ht with
    | after n =>
      unfold Lockfile.toKdl at hlen ⊢
      match n with
      | 0 => intro s hs; cases hs
      | 1 =>
        intro s hs
        simp only [List.take_succ_cons, List.take_zero, List.mem_singleton] at hs
        subst hs
        show kLockVersion ≠ kRoot
        decide
      | n + 2 => simp at hlen
    | @within front rest k s hd hs =>
      cases front with
      | cons a f => simp at hlen
      | nil =>
        unfold Lockfile.toKdl at hd
        simp only [List.nil_append, List.cons.injEq] at hd
        have := hs.name
        rw [← hd.1] at this
        intro x hx
        simp only [List.nil_append, List.mem_singleton] at hx
        subst hx
        intro h
        rw [h] at this
        exact absurd this (by show ¬ kRoot <+: kLockVersion; decide)
  intro h
  have hr : KDoc.get t kRoot = none := by
    unfold KDoc.get
    rw [List.find?_eq_none]
    intro s hs
    simpa using key s hs
  unfold Lockfile.fromKdl at h
  rw [hr] at h
  cases hc : collectNodes ((t.filter fun k => decide (k.name = kPkg)).map fun k => LNode.fromKdl c k false) [] with
  | error e => rw [hc] at h; cases h
  | ok m =>
    rw [hc] at h
    cases hv : readVersion ((KDoc.getArg t kLockVersion).bind KVal.asInt) 1 with
    | error e => rw [hv] at h; cases h
    | ok v => rw [hv] at h; cases h

end

section
variable {P S : Type} [DecidableEq S]

theorem tree_get {tp : LNode V I → Option (Option P)} {m : Lockfile V I} (hw : IMap.WF m.packages)
    (hk : ∀ p ∈ m.packages, p.1 = joinPath p.2.path) {π : List Str} {ent : LockEntry Str P} :
    (m.tree tp).get? π = some ent ↔ ∃ n, (joinPath π, n) ∈ m.packages ∧ n.path = π ∧ ent = ⟨n.path, tp n, n.manifest⟩ := by
  have hwt : IMap.WF (m.tree tp) := by
    have : (IMap.keys (m.tree tp)).map joinPath = IMap.keys m.packages := by
      unfold Lockfile.tree IMap.keys
      rw [List.map_map, List.map_map]
      exact List.map_congr_left fun p hp => (hk p hp).symm
    exact List.Nodup.of_map joinPath (by rw [this]; exact hw)
  rw [IMap.get?_some_iff_mem hwt]
  unfold Lockfile.tree
  constructor
  · intro h
    obtain ⟨p, hp, he⟩ := List.mem_map.1 h
    cases he
    refine ⟨p.2, ?_, rfl, rfl⟩
    rw [← hk p hp]; exact hp
  · rintro ⟨n, h1, rfl, rfl⟩
    exact List.mem_map.2 ⟨_, h1, rfl⟩

/-- an entry of a torn lockfile, as the resolver sees it -/
theorem torn_entry {c : Codec V I} {l l0 l' : Lockfile V I} {t : KDoc} {tp : LNode V I → Option (Option P)}
    (htp : ∀ n : LNode V I, n.resolved = none → n.version = none → tp n = some none)
    (h : l.Proper) (ht : Torn (l.toKdl c) t) (h0 : Lockfile.fromKdl c (l.toKdl c) = .ok l0)
    (h1 : Lockfile.fromKdl c t = .ok l') {π : List Str} {ent : LockEntry Str P} (he : (l'.tree tp).get? π = some ent) :
    (l0.tree tp).get? π = some ent ∨ ent.pkg = some none := by
  obtain ⟨hw, hk, k, h2⟩ := torn_packages h ht h0 h1
  have htake : IMap.WF (l0.packages.take k) := by
    unfold IMap.WF IMap.keys at hw ⊢
    rw [List.map_take]
    exact hw.sublist (List.take_sublist _ _)
  have hw' : IMap.WF l'.packages := by
    rcases h2 with h2 | ⟨b, _, h2⟩ <;> rw [h2]
    · exact htake
    · exact IMap.wf_insert htake _ _
  have hmem : ∀ p ∈ l'.packages, p ∈ l0.packages ∨ (Blank p.2 ∧ p.1 = joinPath p.2.path) := by
    intro p hp
    rcases h2 with h2 | ⟨b, hb, h2⟩
    · rw [h2] at hp; exact .inl (List.mem_of_mem_take hp)
    · have := IMap.get?_of_mem hw' (k := p.1) (v := p.2) hp
      rw [h2, IMap.get?_insert] at this
      split at this
      · rename_i hkey
        cases this
        exact .inr ⟨hb, hkey⟩
      · exact .inl (List.mem_of_mem_take (IMap.mem_of_get? this))
  have hk' : ∀ p ∈ l'.packages, p.1 = joinPath p.2.path := fun p hp => (hmem p hp).elim (hk p) (·.2)
  obtain ⟨n, a1, a2, a3⟩ := (tree_get hw' hk').1 he
  rcases hmem _ a1 with a4 | a4
  · exact .inl ((tree_get hw hk).2 ⟨n, a4, a2, a3⟩)
  · exact .inr (by rw [a3]; exact htp n a4.1.resolved a4.1.version)

/-- what the resolver is given: the lockfile, if it can be read -/
def lockOf (tp : LNode V I → Option (Option P)) : Except LockErr (Lockfile V I) → Option (LockTree Str P)
  | .ok l => some (l.tree tp)
  | .error _ => none

variable {env : Env Str P S} {m : Manifest Str} {w : Str → P × Manifest Str}

/-- what agrees with the lockfile that was to be written agrees with what is left of it, if the registry still answers with
the packages of the lockfile -/
theorem torn_agreed {c : Codec V I} {l l0 : Lockfile V I} {t : KDoc} {tp : LNode V I → Option (Option P)}
    (htp : ∀ n : LNode V I, n.resolved = none → n.version = none → tp n = some none)
    (h : l.Proper) (ht : Torn (l.toKdl c) t) (h0 : Lockfile.fromKdl c (l.toKdl c) = .ok l0)
    (ha : Agreed env (some (l0.tree tp)) m w)
    (hf : ∀ n raw spec, AskedFor m w n raw → env.parse n raw = some spec → env.fetch spec = some (w n)) :
    Agreed env (lockOf tp (Lockfile.fromKdl c t)) m w := by
  cases h1 : Lockfile.fromKdl c t with
  | error e =>
    refine ⟨fun n raw hask => ?_, fun l π ent hl => (by cases hl), ha.reads⟩
    obtain ⟨spec, a1, a2, _⟩ := ha.fits n raw hask
    exact ⟨spec, a1, a2, .inr ⟨fun l ent hl => (by cases hl), hf n raw spec hask a1⟩⟩
  | ok l' =>
    refine ⟨fun n raw hask => ?_, fun l π ent hl he => ?_, ha.reads⟩
    · obtain ⟨spec, a1, a2, a3⟩ := ha.fits n raw hask
      refine ⟨spec, a1, a2, ?_⟩
      have hsilent : (∀ ent, (l'.tree tp).get? [n] = some ent → ent.pkg = some none) →
          LockHas (some (l'.tree tp)) n (w n) ∨ (LockSilent (some (l'.tree tp)) n ∧ env.fetch spec = some (w n)) :=
        fun hs => .inr ⟨fun l ent hl he => (by cases hl; exact hs ent he), hf n raw spec hask a1⟩
      cases hg : (l'.tree tp).get? [n] with
      | none => exact hsilent (fun ent he => (by rw [hg] at he; cases he))
      | some ent =>
        rcases torn_entry htp h ht h0 h1 hg with b | b
        · rcases a3 with ⟨l2, c1, ent', c2, c3, c4⟩ | ⟨c1, _⟩
          · cases c1
            rw [b] at c2; cases c2
            exact .inl ⟨_, rfl, ent, hg, c3, c4⟩
          · refine hsilent (fun ent' he => ?_)
            rw [hg] at he; cases he
            exact c1 _ _ rfl b
        · exact hsilent (fun ent' he => (by rw [hg] at he; cases he; exact b))
    · cases hl
      rcases torn_entry htp h ht h0 h1 he with b | b
      · exact ha.flat _ π ent rfl b
      · exact .inl b

/-- **C101**, for projects without version conflicts: whatever is left of a lockfile whose writing was interrupted, the next
install gives the tree, and writes the lockfile, that an install with the whole lockfile would have given and written – as
long as the registry still has the packages of the lockfile to offer. -/
theorem C101_same_partial {c : Codec V I} {l l0 : Lockfile V I} {t : KDoc} {tp : LNode V I → Option (Option P)} {nm : Str} {pk : P}
    {root : Node Str P S} {s0 s1 : RState Str P S} {v : LockView P S V I}
    (htp : ∀ n : LNode V I, n.resolved = none → n.version = none → tp n = some none)
    (h : l.Proper) (ht : Torn (l.toKdl c) t) (h0 : Lockfile.fromKdl c (l.toKdl c) = .ok l0)
    (ha : Agreed env (some (l0.tree tp)) m w)
    (hf : ∀ n raw spec, AskedFor m w n raw → env.parse n raw = some spec → env.fetch spec = some (w n))
    (hr : Node.new env.parse nm pk m true = some root) (hm : m.Proper) (hv : ∀ n, Reached m w n → ValidName n)
    (r0 : RReach env (some (l0.tree tp)) root s0) (d0 : s0.done = true)
    (r1 : RReach env (lockOf tp (Lockfile.fromKdl c t)) root s1) (d1 : s1.done = true) :
    (∀ π p, Installed s1.graph π p ↔ Installed s0.graph π p) ∧
    ∃ a b, toLockfile v s0.graph = some a ∧ toLockfile v s1.graph = some b ∧ b.toKdl c = a.toKdl c :=
  C08_agreed_partial rfl hr hm ha (torn_agreed htp h ht h0 ha hf) hv r0 d0 r1 d1

/-- **C101**: and that next install does not get stuck or fail. -/
theorem C101_ends {c : Codec V I} {l l0 : Lockfile V I} {t : KDoc} {tp : LNode V I → Option (Option P)} {nm : Str} {pk : P}
    {root : Node Str P S} {s1 : RState Str P S}
    (htp : ∀ n : LNode V I, n.resolved = none → n.version = none → tp n = some none)
    (h : l.Proper) (ht : Torn (l.toKdl c) t) (h0 : Lockfile.fromKdl c (l.toKdl c) = .ok l0)
    (ha : Agreed env (some (l0.tree tp)) m w)
    (hf : ∀ n raw spec, AskedFor m w n raw → env.parse n raw = some spec → env.fetch spec = some (w n))
    (hr : Node.new env.parse nm pk m true = some root) (hm : m.Proper) (hc : 0 < env.concurrency)
    (r1 : RReach env (lockOf tp (Lockfile.fromKdl c t)) root s1) :
    (∀ ev r, rstep env (lockOf tp (Lockfile.fromKdl c t)) s1 ev = some r → ∃ s', r = .ok s') ∧
    (s1.done = false → ∃ ev s', rstep env (lockOf tp (Lockfile.fromKdl c t)) s1 ev = some (.ok s')) := by
  obtain ⟨a, b, _⟩ := C76_flat hr hm (torn_agreed htp h ht h0 ha hf) r1
  exact ⟨a, b hc⟩

end
end Oro
