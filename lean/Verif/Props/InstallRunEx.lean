import Verif.Props.InstallRun
import Verif.Props.Hoisted
/-
C92: such an installation; and why packages must begin in the order of the tree.
-/

set_option linter.unusedSectionVars false

namespace Oro
namespace Hoisted

/-- What a sound archive contains. -/
def contentOf (pr : Bytes → Bytes) (es : List Tar.Entry) (r : Loc) : Option Entry :=
  match es.find? fun f => f.regular && decide ((RPath.components f.header).tail = r.map .normal) with
  | some f => some (.file (pr f.content))
  | none =>
    if es.any fun f => f.regular && (r.map Comp.normal).isPrefixOf (RPath.components f.header).tail then some .dir else none

/-- so `Packed` holds for every sound archive with ordinary paths -/
theorem packed_contentOf {env : Tar.Env} (pr : Bytes → Bytes) {es : List Tar.Entry} (hp : Tar.Plain es) (hs : Tar.Sound env es) :
    Packed pr (contentOf pr es) es := by
  intro r e
  unfold contentOf
  cases hf : es.find? fun f => f.regular && decide ((RPath.components f.header).tail = r.map Comp.normal) with
  | some f =>
    have h1 := List.find?_some hf
    have hm := List.mem_of_find?_eq_some hf
    simp only [Bool.and_eq_true, decide_eq_true_eq] at h1
    simp only [Option.some.injEq]
    constructor
    · rintro rfl
      exact .inl ⟨f, hm, h1.1, h1.2, rfl⟩
    · rintro (⟨f', hm', hr', ht', rfl⟩ | ⟨_, f', hm', hr', s, hs', ht'⟩)
      · rw [Tar.sound_eq hs hm hm' h1.1 hr' (by rw [h1.2, ht'])]
      · exfalso
        have := Tar.sound_eq hs hm hm' h1.1 hr' (by rw [h1.2, ht', List.map_append]; exact List.prefix_append _ _)
        subst this
        rw [h1.2] at ht'
        have := congrArg List.length (map_normal_inj ht')
        simp only [List.length_append] at this
        exact hs' (List.length_eq_zero_iff.1 (by omega))
  | none =>
    rw [List.find?_eq_none] at hf
    simp only
    have hnone : ∀ f ∈ es, f.regular = true → (RPath.components f.header).tail ≠ r.map .normal := fun f hm hr ht =>
      hf f hm (by simp [hr, ht])
    constructor
    · intro h
      split at h
      · rename_i hany
        cases h
        obtain ⟨f, hm, hx⟩ := List.any_eq_true.1 hany
        simp only [Bool.and_eq_true, List.isPrefixOf_iff_prefix] at hx
        obtain ⟨hr, hpre⟩ := hx
        obtain ⟨t, ht, _⟩ := tail_names hp hm hr []
        rw [ht] at hpre
        obtain ⟨y, hy⟩ := hpre
        obtain ⟨a, s, rfl, ha, _⟩ := List.map_eq_append_iff.1 hy.symm
        rw [map_normal_inj ha] at ht
        exact .inr ⟨rfl, f, hm, hr, s, fun hs' => hnone f hm hr (by rw [ht, hs', List.append_nil]), ht⟩
      · cases h
    · rintro (⟨f, hm, hr, ht, _⟩ | ⟨rfl, f, hm, hr, s, _, ht⟩)
      · exact absurd ht (hnone f hm hr)
      · rw [if_pos]
        refine List.any_eq_true.2 ⟨f, hm, ?_⟩
        simp only [Bool.and_eq_true, List.isPrefixOf_iff_prefix]
        exact ⟨hr, by rw [ht, List.map_append]; exact List.prefix_append _ _⟩

namespace ExI

def c : Str := ['c']
/-- root ⊃ a ⊃ c, root ⊃ @s/b; a package is the number of its tarball -/
def g : Graph Str UInt8 Nat :=
  ⟨[⟨[], 0, [], none, [(['a'], 1), (Ex.sb, 2)], []⟩, ⟨['a'], 2, [], some 0, [(c, 3)], []⟩, ⟨Ex.sb, 6, [], some 0, [], []⟩,
    ⟨c, 1, [], some 1, [], []⟩], []⟩

def pk : Pkgs UInt8 where
  content b := contentOf id (ExT.env.untar [b]).1
  scripts b := b == 1
  bins _ := []

/-- package 6 comes from the cache, there is no network for it -/
def fetch (b : UInt8) : Option Tar.Integrity × Option (List Tar.Ev) := (some (ExT.n b), if b = 6 then none else ExT.net b)

def build : Bytes → Option Bool
  | [7] => some true
  | [8] => some false
  | _ => none

def o : XOpts := ⟨[['w']], true, false, true, false⟩

def fs : Tar.FS := { Tar.ExR.fsC with dirs := fun q => q.isPrefixOf [['w'], nmWord] }

theorem tree : FolderTree g := by
  refine ⟨⟨_, rfl, rfl⟩, ?_, ?_, ?_, ?_⟩
  · intro i nd hi h0
    rcases i with _ | _ | _ | _ | i
    · exact absurd rfl h0
    · cases hi; exact ⟨0, _, rfl, rfl, rfl⟩
    · cases hi; exact ⟨0, _, rfl, rfl, rfl⟩
    · cases hi; exact ⟨1, _, rfl, rfl, rfl⟩
    · cases hi
  · intro p pn n c hp hc
    have hm := IMap.mem_of_get? hc
    rcases p with _ | _ | _ | _ | p
    · cases hp
      simp only [List.mem_cons, Prod.mk.injEq, List.not_mem_nil, or_false] at hm
      rcases hm with ⟨rfl, rfl⟩ | ⟨rfl, rfl⟩
      · exact ⟨_, rfl, rfl, rfl⟩
      · exact ⟨_, rfl, rfl, rfl⟩
    · cases hp
      simp only [List.mem_cons, Prod.mk.injEq, List.not_mem_nil, or_false] at hm
      obtain ⟨rfl, rfl⟩ := hm
      exact ⟨_, rfl, rfl, rfl⟩
    · cases hp; simp at hm
    · cases hp; simp at hm
    · cases hp
  · intro p pn hp
    rcases p with _ | _ | _ | _ | p <;> cases hp <;> (unfold IMap.WF IMap.keys; simp [Ex.sb])
  · intro i nd hi
    have w0 : Within g 0 0 := .refl rfl
    rcases i with _ | _ | _ | _ | i
    · exact w0
    · exact .up rfl rfl w0
    · exact .up rfl rfl w0
    · exact .up rfl rfl (.up rfl rfl w0)
    · cases hi

theorem instC : InstName c := ⟨.inl (by decide), by decide, by decide, by decide, by intro s h; cases h⟩

theorem nodes {i : Nat} {nd : Node Str UInt8 Nat} (h0 : i ≠ 0) (hi : g.nodes[i]? = some nd) :
    (i = 1 ∧ nd.pkg = 2 ∧ nd.name = ['a']) ∨ (i = 2 ∧ nd.pkg = 6 ∧ nd.name = Ex.sb) ∨ (i = 3 ∧ nd.pkg = 1 ∧ nd.name = c) := by
  rcases i with _ | _ | _ | _ | i
  · exact absurd rfl h0
  · cases hi; exact .inl ⟨rfl, rfl, rfl⟩
  · cases hi; exact .inr (.inl ⟨rfl, rfl, rfl⟩)
  · cases hi; exact .inr (.inr ⟨rfl, rfl, rfl⟩)
  · cases hi

/-- the three tarballs are in order -/
theorem archives (b : UInt8) (hb : b = 1 ∨ b = 2 ∨ b = 6) : (ExT.env.untar [b]).2 = true ∧ Tar.Plain (ExT.env.untar [b]).1 ∧
    Tar.Sound ExT.env (ExT.env.untar [b]).1 := by
  have hpl := Tar.ExR.ready.plain
  have hso := Tar.ExR.ready.sound
  rcases hb with rfl | rfl | rfl
  · exact ⟨rfl, hpl 2 _ rfl, hso 2 _ rfl⟩
  · exact ⟨rfl, hpl 1 _ rfl, hso 1 _ rfl⟩
  · exact ⟨rfl, hpl 0 _ rfl, hso 0 _ rfl⟩

theorem which {i : Nat} {nd : Node Str UInt8 Nat} (h0 : i ≠ 0) (hi : g.nodes[i]? = some nd) : nd.pkg = 1 ∨ nd.pkg = 2 ∨ nd.pkg = 6 := by
  rcases nodes h0 hi with ⟨_, h, _⟩ | ⟨_, h, _⟩ | ⟨_, h, _⟩ <;> simp [h]

theorem installable : Installable pk g where
  tree := tree
  order := by
    intro i nd p hi hp
    rcases i with _ | _ | _ | _ | i <;> cases hi <;> cases hp <;> decide
  names := by
    intro i nd h0 hi
    rcases nodes h0 hi with ⟨_, _, h⟩ | ⟨_, _, h⟩ | ⟨_, _, h⟩ <;> rw [h]
    · exact Ex.instA
    · exact Ex.instB
    · exact instC
  dirs := by
    intro i nd h0 hi
    rcases which h0 hi with h | h | h <;> rw [h] <;> decide +kernel
  bundled := by
    intro i nd r h0 hi
    cases hx : pk.content nd.pkg (nmWord :: r) with
    | none => rfl
    | some e =>
      exfalso
      obtain ⟨_, h2, h3⟩ := archives nd.pkg (which h0 hi)
      have hub : Tar.Unbundled (ExT.env.untar [nd.pkg]).1 := by
        have := Tar.ExR.ready.unbundled
        rcases which h0 hi with h | h | h <;> rw [h]
        · exact this 2 _ rfl
        · exact this 1 _ rfl
        · exact this 0 _ rfl
      rcases (packed_contentOf id h2 h3 _ _).1 hx with ⟨f, hf, hr, ht, _⟩ | ⟨_, f, hf, hr, s, _, ht⟩
      · exact hub f hf hr (by rw [ht, kNodeModules_eq]; rfl)
      · exact hub f hf hr (by rw [ht, kNodeModules_eq]; rfl)

theorem start : Start ExT.env build id pk g o fetch (fun b => [b]) fs where
  tree := installable
  bare := by
    refine ⟨fun d hd q hq => ?_, by decide +kernel, fun q _ => rfl, fun p hp => ⟨rfl, ?_⟩⟩
    · simp only [fs, List.isPrefixOf_iff_prefix] at hd ⊢
      exact hq.trans hd
    · cases hx : fs.dirs (o.root ++ nmWord :: p) with
      | false => rfl
      | true =>
        simp only [fs, List.isPrefixOf_iff_prefix] at hx
        have := List.IsPrefix.length_le hx
        simp only [o, List.length_append, List.length_cons, List.length_nil] at this
        exact absurd (List.length_eq_zero_iff.1 (by omega)) hp
  packages i nd j h0 hi hj := by
    obtain ⟨h1, h2, h3⟩ := archives nd.pkg (which h0 hi)
    unfold jobsFor at hj
    rw [if_neg h0, hi] at hj
    cases hj
    refine ⟨fun t => ExT.n_check _ _, h1, h2, h3, ?_, fun i' hi' ce hce => ?_⟩
    · unfold Tar.Served
      dsimp only
      rcases which h0 hi with h | h | h <;> rw [h]
      · exact .inl ⟨[.data [1]], rfl, rfl⟩
      · exact .inl ⟨[.data [2]], rfl, rfl⟩
      · exact .inr ⟨rfl, ExT.n 6, ⟨false, [], Tar.listing ExT.env (ExT.env.untar [6]).1 []⟩, rfl, by simp [fs, Tar.ExR.fsC]⟩
    · obtain ⟨_, rfl⟩ := Tar.ExR.fsC_index (ce := ce) hce
      exact ⟨_, rfl, Tar.ExR.fsC_stocked⟩
  packed i nd h0 hi := by
    obtain ⟨_, h2, h3⟩ := archives nd.pkg (which h0 hi)
    exact packed_contentOf id h2 h3
  built i nd h0 hi := by
    rcases which h0 hi with h | h | h <;> rw [h]
    · exact ⟨ExT.f ExT.pj [7], by decide +kernel, rfl, by decide +kernel, rfl⟩
    · exact ⟨ExT.f ExT.pj [8], by decide +kernel, rfl, by decide +kernel, rfl⟩
    · exact ⟨ExT.f ExT.pj [8], by decide +kernel, rfl, by decide +kernel, rfl⟩
  sight c c' h := ExT.str_inj _ _ h
  reading c c' h := by rw [ExT.str_inj _ _ h]

/-- taking turns -/
def s (m : Nat) : Nat := m % 4

theorem turns (m : Nat) : ListOrder (jobsFor o g fetch) ((List.range m).map s) := by
  intro pre n post h _ k hk _
  have hlen := congrArg List.length h
  simp only [List.length_map, List.length_range, List.length_append, List.length_cons] at hlen
  have hn : n = pre.length % 4 := by
    have := congrArg (fun l => l[pre.length]?) h
    simp only [List.getElem?_map] at this
    rw [List.getElem?_range (by omega), List.getElem?_append_right (Nat.le_refl _)] at this
    simp only [Option.map_some, Nat.sub_self, List.getElem?_cons_zero, Option.some.injEq] at this
    exact this.symm
  have hkl : k < pre.length := lt_of_lt_of_le hk (by rw [hn]; exact Nat.mod_le _ _)
  refine List.mem_iff_getElem?.2 ⟨k, ?_⟩
  have := congrArg (fun l => l[k]?) h
  simp only [List.getElem?_map] at this
  rw [List.getElem?_range (by omega), List.getElem?_append_left hkl] at this
  rw [← this]
  simp only [Option.map_some, s, Option.some.injEq]
  exact Nat.mod_eq_of_lt (by omega)

theorem fs_sane : Tar.Sane fs := Tar.ExR.fsC_sane
theorem fs_honest : Tar.Honest ExT.env fs := Tar.ExR.fsC_honest
theorem noCol : Tar.NoCol ExT.env := fun _ _ h => by rw [ExT.str_inj _ _ h]

/-- this installation ends, and then everything is in place -/
example : ∃ m, Installed pk g (seen id o.root ((XRun.init fs).run ExT.env build (jobsFor o g fetch) ((List.range m).map s)).runs.fs) := by
  obtain ⟨M, hM⟩ := C92_ends ExT.ord_perm noCol fs_sane fs_honest start s turns (by
    intro i nd h0 hi N
    have : i < 4 := by rcases nodes h0 hi with ⟨h, _⟩ | ⟨h, _⟩ | ⟨h, _⟩ <;> omega
    exact ⟨4 * N + i, by omega, by unfold s; omega⟩)
  exact ⟨M, (C92_installed ExT.ord_perm noCol fs_sane fs_honest start _ (turns M) (hM M (Nat.le_refl _))).1⟩

/-- after 200 turns it is over -/
example : (List.range 4).map ((XRun.init fs).run ExT.env build (jobsFor o g fetch) ((List.range 200).map s)).phase =
    [.waiting, .extracted false, .extracted false, .extracted true] := by decide +kernel

end ExI

/-- If packages did not begin in the order of the tree, this would fail: a nested package makes the folder of the package around
it, which is then taken for extracted. -/
theorem C92_order_fails : Start ExT.env ExI.build id ExI.pk ExI.g ExI.o ExI.fetch (fun b => [b]) ExI.fs ∧
    ((XRun.init ExI.fs).run ExT.env ExI.build (jobsFor ExI.o ExI.g ExI.fetch) [3, 3, 3, 1]).phase 1 = .skipped :=
  ⟨ExI.start, by decide +kernel⟩

end Hoisted
end Oro
