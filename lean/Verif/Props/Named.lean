import Verif.Spec.Named
import Verif.Model.Spelled
import Verif.Proofs.Acyclic
import Verif.Props.Fetch
/- C78: a requirement is linked to the package it names. -/

set_option linter.unusedSectionVars false

namespace Oro
open Graph

section
variable {N P S A : Type} [DecidableEq N] [DecidableEq S]
variable {env : Env N P S} {lock : Option (LockTree N P)} {root : Node N P S} {s : RState N P S}
variable {wants : S → A} {called : P → A} {means : N → A}

/-- every installed package is the one its folder's name stands for, and every link leads to what is asked for -/
private def NamedInv (wants : S → A) (called : P → A) (means : N → A) (g : Graph N P S) : Prop :=
  (∀ (i : Nat) (nd : Node N P S), g.nodes[i]? = some nd → i ≠ 0 → called nd.pkg = means nd.name) ∧
  (∀ e ∈ g.edges, ∃ dn, g.nodes[e.dst]? = some dn ∧ called dn.pkg = wants e.spec)

private theorem req_means (ho : OneMeaning env lock root wants called means)
    {g : Graph N P S} (hp : Prov env lock g) (h0 : ∃ nd, g.nodes[0]? = some nd ∧ nd.reqs = root.reqs) {d : Dep N S}
    (hd : DepPre g d) : wants d.spec = means d.name := by
  obtain ⟨nd, h1, h2, _⟩ := hd
  by_cases hz : d.node = 0
  · obtain ⟨rd, a, b⟩ := h0
    rw [hz, a] at h1; cases h1
    rw [b] at h2
    exact ho.project _ _ _ h2
  · obtain ⟨m, hk, hm⟩ := hp _ _ h1 hz
    obtain ⟨raw, hin, hpa⟩ := mkReqs_from hm h2
    exact ho.packages _ _ _ _ _ hk (by simpa using hin) hpa

theorem child_ne_zero {g : Graph N P S} (h : GInv env g) {i : Nat} {n : N} {x : Nat} {xn : Node N P S}
    (hx : g.resolveDep i n = some x) (hxn : g.nodes[x]? = some xn) : x ≠ 0 ∧ xn.name = n := by
  unfold Graph.resolveDep at hx
  obtain ⟨j, _, hj⟩ := List.exists_of_findSome?_eq_some hx
  unfold Graph.child? at hj
  cases hjn : g.nodes[j]? with
  | none => rw [hjn] at hj; cases hj
  | some jn =>
    rw [hjn] at hj
    obtain ⟨nd, a, b, c⟩ := h.kid j jn n x hjn hj
    rw [hxn] at a; cases a
    refine ⟨?_, c⟩
    rintro rfl
    obtain ⟨rd, a, b'⟩ := h.root
    rw [hxn] at a; cases a
    rw [b] at b'; cases b'

/-- C78, partially. If each name stands for one package throughout (no two names that differ in case only, no name that is
an alias in one place and a package in another), then at every moment of every resolve each requirement is linked to the
package it is for, and every installed package is the one its folder's name stands for. -/
theorem C78_named_partial (hr : IsRoot env root) (ho : OneMeaning env lock root wants called means)
    (h : RReach env lock root s) : LinksNamed s.graph wants called ∧
      ∀ (i : Nat) (nd : Node N P S), s.graph.nodes[i]? = some nd → i ≠ 0 → called nd.pkg = means nd.name := by
  have key : Prov env lock s.graph ∧ (∃ nd, s.graph.nodes[0]? = some nd ∧ nd.reqs = root.reqs) ∧
      NamedInv wants called means s.graph := by
    refine h.graph_ind hr (I := fun g => Prov env lock g ∧ (∃ nd, g.nodes[0]? = some nd ∧ nd.reqs = root.reqs) ∧
      NamedInv wants called means g) ?_ ?_
    · refine ⟨?_, ⟨root, rfl, rfl⟩, ?_, ?_⟩
      · intro i nd hi h0
        cases i with
        | zero => exact absurd rfl h0
        | succ i => simp at hi
      · intro i nd hi h0
        cases i with
        | zero => exact absurd rfl h0
        | succ i => simp at hi
      · intro e he; cases he
    · intro g g' hi ⟨hp, h0, hn, he⟩ hs
      refine ⟨hs.prov hi hp, ?_, ?_⟩
      · obtain ⟨nd, a, b⟩ := h0
        cases hs with
        | link d hpre hsd =>
          obtain ⟨h1, _⟩ := satisfy_some hsd
          subst h1
          exact ⟨_, linkAt_get a, b⟩
        | place d hpre hsd hsrc hrr =>
          obtain ⟨nd', t, hn, ht, h1, _, _⟩ := placeChild_eq hi hpre hsd hrr
          rw [h1]
          refine ⟨placeUpd g d t 0 nd, (placeAt_old g d nd' t (lt_of_get a)).trans (by rw [a]; rfl), b⟩
      · cases hs with
        | link d hpre hsd =>
          obtain ⟨h1, h2, xn, h3, h4⟩ := satisfy_some hsd
          subst h1
          refine ⟨?_, ?_⟩
          · intro i nd hi' hz
            obtain ⟨y, hy, rfl⟩ := linkAt_inv hi'
            exact hn i y hy hz
          · intro e hin
            rw [linkAt_edges] at hin
            rcases List.mem_append.mp hin with hin | hin
            · obtain ⟨dn, a, b⟩ := he e hin
              exact ⟨_, linkAt_get a, b⟩
            · cases List.mem_singleton.mp hin
              obtain ⟨hz, hnm⟩ := child_ne_zero hi h2 h3
              refine ⟨_, linkAt_get h3, ?_⟩
              show called xn.pkg = wants d.spec
              rw [hn _ _ h3 hz, hnm, req_means ho hp h0 hpre]
        | place d hpre hsd hsrc hrr =>
          obtain ⟨nd, t, hnn, ht, h1, _, _⟩ := placeChild_eq hi hpre hsd hrr
          obtain ⟨hname, hpk, _, _, _, hreq⟩ := nodeNew_spec hnn
          have hw := req_means ho hp h0 hpre
          have hnew : called nd.pkg = means d.name := by
            rw [hpk]
            rcases hsrc with ⟨hf, _⟩ | ⟨l, ent, hl, hse, hm, _⟩
            · rw [ho.registry _ _ _ hf, hw]
            · obtain ⟨pre, _, _, e1, e2, _⟩ := (lockWalk_iff _).mp hse
              exact ho.lockfile l pre _ ent _ hl e1 e2
          rw [h1]
          refine ⟨?_, ?_⟩
          · intro i x hi' hz
            rcases placeAt_cases _ d nd t hpre.lt ht.lt hi' with ⟨_, y, hy, rfl⟩ | ⟨rfl, rfl⟩
            · exact hn i y hy hz
            · show called nd.pkg = means nd.name
              rw [hname]; exact hnew
          · intro e hin
            rw [placeAt_edges] at hin
            rcases List.mem_append.mp hin with hin | hin
            · obtain ⟨dn, a, b⟩ := he e hin
              exact ⟨placeUpd g d t e.dst dn, (placeAt_old g d nd t (lt_of_get a)).trans (by rw [a]; rfl), b⟩
            · cases List.mem_singleton.mp hin
              refine ⟨_, placeAt_new g d nd t hpre.lt ht.lt, ?_⟩
              show called nd.pkg = wants d.spec
              rw [hnew, hw]
  refine ⟨?_, key.2.2.1⟩
  intro i n e ⟨nd, k, _, _, hk⟩
  exact key.2.2.2 e (List.mem_of_getElem? hk)

end

/-! ### the code breaks it -/

namespace Spelled
open PSpec Nassun

variable {V R U I : Type} [DecidableEq V] [DecidableEq R] [DecidableEq U]

/-- what a specifier text is read as -/
def ReadAs (E : SpecEnv V R U) (t : Str) (a : PackageSpec V R U) : Prop := PSpec.parse E t = .ok a

/-- a requirement that is written with a used name and read as one for the registry package of that name -/
def PlainEntry (E : SpecEnv V R U) (Used : Str → Prop) (d : Str × Str) : Prop :=
  Used d.1 ∧ ∀ a, ReadAs E (d.1 ++ '@' :: d.2) a → registryName a = some d.1

/-- what `registryName` is: the name of a registry package; of the package an alias stands for, however nested; none for
directories and repositories -/
theorem C78_registry_name {V R U : Type} : (∀ sc n q, registryName (.npm sc n q : PackageSpec V R U) = some n) ∧
    (∀ n (a : PackageSpec V R U), registryName (.alias n a) = registryName a) ∧
    (∀ p, registryName (.dir p : PackageSpec V R U) = none) ∧ ∀ x, registryName (.git x : PackageSpec V R U) = none :=
  ⟨fun _ _ _ => rfl, fun _ a => (by cases a <;> rfl), fun _ => rfl, fun _ => rfl⟩

/-- C78, partially, for names as they are spelled: if no two of the names in use differ in case only, and none is an alias,
each requirement is linked to the package of the very name that is spelled in it. -/
theorem C78_spelled_partial {fold : Str → Str} {w : World V R I} {E : SpecEnv V R U}
    {look : PackageSpec V R U → Option (Resolution V R U I × RawManifest)} {le : Pkg V R U I → Pkg V R U I → Bool} {k : Nat}
    {m : RawManifest} {nm : Str} {pk : Pkg V R U I} {root : Node Str (Pkg V R U I) (PackageSpec V R U)}
    {s : RState Str (Pkg V R U I) (PackageSpec V R U)} (Used : Str → Prop)
    (hinj : ∀ a b, Used a → Used b → fold a = fold b → a = b)
    (hm : ∀ d ∈ m.deps ++ m.optDeps ++ m.devDeps, PlainEntry E Used d)
    (hl : ∀ spec r, look spec = some r → ∀ d ∈ r.2.deps ++ r.2.optDeps, PlainEntry E Used d)
    (hroot : Node.new (spelledEnv fold w E look le k).parse nm pk (m.folded fold) true = some root)
    (h : RReach (spelledEnv fold w E look le k) none root s) :
    LinksNamed s.graph registryName fun p => registryName p.asked := by
  classical
  have hent : ∀ (l : List (Str × Str)) (hp : ∀ d ∈ l, PlainEntry E Used d) (n raw : Str) (spec : PackageSpec V R U),
      (n, raw) ∈ l.map (entry fold) → (spelledEnv fold w E look le k).parse n raw = some spec →
      registryName spec = if hx : ∃ a, Used a ∧ fold a = n then some (Classical.choose hx) else none := by
    intro l hp n raw spec hin hpa
    obtain ⟨d, hd, he⟩ := List.mem_map.mp hin
    obtain ⟨h1, h2⟩ := hp d hd
    cases he
    have hx : ∃ a, Used a ∧ fold a = fold d.1 := ⟨d.1, h1, rfl⟩
    rw [dif_pos hx, hinj _ _ (Classical.choose_spec hx).1 h1 (Classical.choose_spec hx).2]
    apply h2
    unfold ReadAs
    simp only [spelledEnv] at hpa
    split at hpa
    · rename_i a ha
      cases hpa; exact ha
    · cases hpa
  refine (C78_named_partial (means := fun n => if hx : ∃ a, Used a ∧ fold a = n then some (Classical.choose hx) else none)
    ⟨nm, pk, _, hroot⟩ ⟨?_, ?_, ?_, ?_⟩ h).1
  · intro n spec ty hg
    obtain ⟨raw, hin, hpa⟩ := mkReqs_from (nodeNew_spec hroot).2.2.2.2.2 hg
    refine hent (m.deps ++ m.optDeps ++ m.devDeps) hm n raw spec ?_ hpa
    simpa [RawManifest.folded] using hin
  · intro p m' n raw spec hk hin hpa
    rcases hk with ⟨sp, hf⟩ | ⟨l, _, _, hl, _⟩
    · simp only [spelledEnv, Option.map_eq_some_iff] at hf
      obtain ⟨r, h1, h2⟩ := hf
      cases h2
      refine hent (r.2.deps ++ r.2.optDeps) (hl sp r h1) n raw spec ?_ hpa
      simpa [RawManifest.folded] using hin
    · cases hl
  · intro spec p m' hf
    simp only [spelledEnv, Option.map_eq_some_iff] at hf
    obtain ⟨r, h1, h2⟩ := hf
    cases h2; rfl
  · intro l _ _ _ _ hl
    cases hl

/-- C78 fails: of two dependencies whose names differ in case only, the project gets the second one alone. -/
theorem C78_twice_fails {fold : Str → Str} {w : World V R I} {E : SpecEnv V R U}
    {look : PackageSpec V R U → Option (Resolution V R U I × RawManifest)} {le : Pkg V R U I → Pkg V R U I → Bool} {k : Nat}
    {a b x y : Str} {sa sb : PackageSpec V R U} (hab : fold a = fold b) (ha : ReadAs E (a ++ '@' :: x) sa)
    (hb : ReadAs E (b ++ '@' :: y) sb) (nm : Str) (pk : Pkg V R U I) :
    ∃ root, Node.new (spelledEnv fold w E look le k).parse nm pk (RawManifest.folded fold ⟨[(a, x), (b, y)], [], []⟩) true = some root ∧
      ∀ n spec ty, root.reqs.get? n = some (spec, ty) → spec = sb := by
  have hp : mkReqs (spelledEnv fold w E look le k).parse (RawManifest.folded fold ⟨[(a, x), (b, y)], [], []⟩) true
      = some [(fold b, (sb, .prod))] := by
    unfold ReadAs at ha hb
    simp [mkReqs, RawManifest.folded, entry, spelledEnv, ha, hb, hab, IMap.insert]
  refine ⟨_, by unfold Node.new; rw [hp]; rfl, ?_⟩
  intro n spec ty h
  simp only [IMap.get?] at h
  split at h
  · cases h; rfl
  · cases h

namespace ExN
open Fetch

abbrev PS := PackageSpec Nat (List Nat) Str
abbrev PK := Pkg Nat (List Nat) Str Str

def lower (s : Str) : Str := s.map Char.toLower

/-- the registry has one version of everything; `b` requires `js` -/
def look (s : PS) : Option (Resolution Nat (List Nat) Str Str × RawManifest) :=
  match s.target with
  | .npm _ n _ => some (.npm n 1 [] none, { deps := if n = ['b'] then [(['j', 's'], ['^', '1'])] else [] })
  | _ => none

def env : Env Str PK PS := spelledEnv lower ExS.world ExF.spec look (fun _ _ => true) 10

def range1 (n : Str) : PS := .npm none n (some (.range [1, 2, 3]))

def pk0 : PK := ⟨range1 [], .dir [] []⟩

/-- the project requires `Js` and `b` -/
def rootC : Node Str PK PS :=
  { name := [], pkg := pk0, reqs := [(['j', 's'], (range1 ['J', 's'], .prod)), (['b'], (range1 ['b'], .prod))] }

/-- the project requires `js`, by which it means the package `zz`, and `b` -/
def rootA : Node Str PK PS :=
  { name := [], pkg := pk0, reqs := [(['j', 's'], (.alias ['j', 's'] (range1 ['z', 'z']), .prod)), (['b'], (range1 ['b'], .prod))] }

theorem rootC_ok : Node.new env.parse [] pk0
    (RawManifest.folded lower { deps := [(['J', 's'], ['^', '1']), (['b'], ['^', '1'])] }) true = some rootC := by decide +kernel
theorem rootA_ok : Node.new env.parse [] pk0
    (RawManifest.folded lower { deps := [(['j', 's'], ['n', 'p', 'm', ':', 'z', 'z', '@', '^', '1']), (['b'], ['^', '1'])] }) true
      = some rootA := by decide +kernel

def sched (a : PS) : List (REvent PS) :=
  [.pop, .pull, .pull, .complete a, .complete (range1 ['b']), .deliver, .pop, .pop]

def ok : Option (Except ResolveErr (RState Str PK PS)) → Bool
  | some (.ok _) => true
  | _ => false

def get : Option (Except ResolveErr (RState Str PK PS)) → RState Str PK PS
  | some (.ok s) => s
  | _ => rinit rootC

theorem get_eq {x : Option (Except ResolveErr (RState Str PK PS))} (h : ok x = true) : x = some (.ok (get x)) := by
  unfold ok at h
  split at h
  · rfl
  · cases h

def finC : RState Str PK PS := get (rrun env none (rinit rootC) (sched (range1 ['J', 's'])))
def finA : RState Str PK PS := get (rrun env none (rinit rootA) (sched (.alias ['j', 's'] (range1 ['z', 'z']))))

theorem finC_reach : RReach env none rootC finC := rrun_reach _ .init (get_eq (by decide +kernel))
theorem finA_reach : RReach env none rootA finA := rrun_reach _ .init (get_eq (by decide +kernel))

/-- a link that leads to a package of another name -/
def wrong (g : Graph Str PK PS) : Bool :=
  g.edges.any fun e => match g.nodes[e.src]?, g.nodes[e.dst]? with
    | some nd, some dn => (nd.deps.any fun d => nd.deps.get? d.1 == some d.2 && g.edges[d.2]? == some e) &&
        registryName dn.pkg.asked != registryName e.spec
    | _, _ => false

theorem wrong_not {g : Graph Str PK PS} (h : wrong g = true) :
    ¬ LinksNamed g registryName fun p => registryName p.asked := by
  intro hn
  unfold wrong at h
  obtain ⟨e, he, h⟩ := List.any_eq_true.mp h
  split at h
  · rename_i nd dn hs hd
    obtain ⟨h1, h2⟩ := Bool.and_eq_true_iff.mp h
    obtain ⟨d, hdm, h3⟩ := List.any_eq_true.mp h1
    obtain ⟨h4, h5⟩ := Bool.and_eq_true_iff.mp h3
    obtain ⟨dn', h6, h7⟩ := hn e.src d.1 e ⟨nd, d.2, hs, by simpa using h4, by simpa using h5⟩
    rw [hd] at h6; cases h6
    exact (bne_iff_ne.mp h2) h7
  · cases h

/-- the project requires `js` and `b` -/
def rootP : Node Str PK PS :=
  { name := [], pkg := pk0, reqs := [(['j', 's'], (range1 ['j', 's'], .prod)), (['b'], (range1 ['b'], .prod))] }

theorem rootP_ok : Node.new env.parse [] pk0
    (RawManifest.folded lower { deps := [(['j', 's'], ['^', '1']), (['b'], ['^', '1'])] }) true = some rootP := by decide +kernel

def finP : RState Str PK PS := get (rrun env none (rinit rootP) (sched (range1 ['j', 's'])))
theorem finP_reach : RReach env none rootP finP := rrun_reach _ .init (get_eq (by decide +kernel))

theorem plain {n : Str} (h : n = ['j', 's'] ∨ n = ['b']) :
    PlainEntry ExF.spec (fun n => n = ['j', 's'] ∨ n = ['b']) (n, ['^', '1']) := by
  refine ⟨h, ?_⟩
  intro a ha
  unfold ReadAs at ha
  rcases h with rfl | rfl
  · have : PSpec.parse ExF.spec (['j', 's'] ++ '@' :: ['^', '1']) = .ok (range1 ['j', 's']) := by decide +kernel
    rw [this] at ha; cases ha; rfl
  · have : PSpec.parse ExF.spec (['b'] ++ '@' :: ['^', '1']) = .ok (range1 ['b']) := by decide +kernel
    rw [this] at ha; cases ha; rfl

/-- the hypotheses of `C78_spelled_partial` are met by a project that requires `js` and `b`, which requires `js` too -/
example : finP.done = true ∧ finP.graph.edges.length = 3 ∧
    LinksNamed finP.graph registryName fun p => registryName p.asked :=
  ⟨by decide +kernel, by decide +kernel, C78_spelled_partial (m := { deps := [(['j', 's'], ['^', '1']), (['b'], ['^', '1'])] })
    (fun n => n = ['j', 's'] ∨ n = ['b'])
    (by rintro a b (rfl | rfl) (rfl | rfl) h <;> first | rfl | exact absurd h (by decide))
    (by
      intro d hd
      simp only [List.append_nil, List.mem_cons, List.not_mem_nil, or_false] at hd
      rcases hd with rfl | rfl
      · exact plain (.inl rfl)
      · exact plain (.inr rfl))
    (by
      intro spec r hr d hd
      simp only [look] at hr
      split at hr
      · cases hr
        split at hd
        · simp only [List.append_nil, List.mem_cons, List.not_mem_nil, or_false] at hd
          subst hd; exact plain (.inl rfl)
        · cases hd
      · cases hr)
    rootP_ok finP_reach⟩

end ExN

/-- C78 fails (case): a project that requires `Js`, and `b`, which requires `js`. The resolve ends, and `b` is linked to
the package `Js`. -/
theorem C78_case_fails : ∃ (look : ExN.PS → Option (Resolution Nat (List Nat) Str Str × RawManifest)) (root : Node Str ExN.PK ExN.PS)
    (s : RState Str ExN.PK ExN.PS),
    let env := spelledEnv ExN.lower ExS.world Fetch.ExF.spec look (fun _ _ => true) 10
    Node.new env.parse [] ExN.pk0 (RawManifest.folded ExN.lower { deps := [(['J', 's'], ['^', '1']), (['b'], ['^', '1'])] }) true
      = some root ∧
    RReach env none root s ∧ s.done = true ∧ ¬ LinksNamed s.graph registryName fun p => registryName p.asked :=
  ⟨ExN.look, ExN.rootC, ExN.finC, ExN.rootC_ok, ExN.finC_reach, by decide +kernel, ExN.wrong_not (by decide +kernel)⟩

/-- C78 fails (aliases): a project that requires `zz` by the name `js`, and `b`, which requires `js`. The resolve ends,
and `b` is linked to the package `zz`. -/
theorem C78_alias_fails : ∃ (look : ExN.PS → Option (Resolution Nat (List Nat) Str Str × RawManifest)) (root : Node Str ExN.PK ExN.PS)
    (s : RState Str ExN.PK ExN.PS),
    let env := spelledEnv ExN.lower ExS.world Fetch.ExF.spec look (fun _ _ => true) 10
    Node.new env.parse [] ExN.pk0 (RawManifest.folded ExN.lower
      { deps := [(['j', 's'], ['n', 'p', 'm', ':', 'z', 'z', '@', '^', '1']), (['b'], ['^', '1'])] }) true = some root ∧
    RReach env none root s ∧ s.done = true ∧ ¬ LinksNamed s.graph registryName fun p => registryName p.asked :=
  ⟨ExN.look, ExN.rootA, ExN.finA, ExN.rootA_ok, ExN.finA_reach, by decide +kernel, ExN.wrong_not (by decide +kernel)⟩

end Spelled
end Oro
