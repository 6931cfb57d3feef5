import Verif.Props.Stack
/- C88: a registry with two packages, one of them also wanted under another name. -/

set_option linter.unusedSectionVars false

namespace Oro
namespace Stack
namespace ExK
open PSpec Nassun Fetch Docs
open Meta (CManifest CDist CVersion CPackument)

def digit (c : Char) : Option Nat := if c.isDigit then some (c.toNat - 48) else none

/-- versions are digits, ranges are `^` and a digit -/
def spec : SpecEnv Nat Nat Str where
  parseV s := match s with
    | [c] => digit c
    | _ => none
  showV n := [Char.ofNat (48 + n)]
  parseR s := match s with
    | ['^', c] => digit c
    | _ => none
  showR n := ['^', Char.ofNat (48 + n)]
  parseU := ExS.env.parseU
  showU := id
  scheme := ExS.env.scheme
  host := ExS.env.host
  path := ExS.env.path
  alphabetic := Char.isAlpha

/-- `^n` are the versions from n on -/
def world : World Nat Nat Str where
  le a b := decide (a ≤ b)
  sat r v := decide (r ≤ v)
  isStar _ := false
  zero := 0
  canonicalize s := some ('/' :: s)
  join a b := a ++ '/' :: b
  parseI s := some s

theorem world_total : TotalLe world.le :=
  ⟨fun a b => by simp [world]; omega, fun a b c => by simp [world]; omega, fun a b => by simp [world]; omega⟩

/-- the entry of a version: it says which one it is, what it depends on and where it is -/
def entry (v : Str) (deps : List (Str × Str)) (t : Str) : Json :=
  .obj [(kVersion, .str v), (kDependencies, .obj (deps.map fun d => (d.1, .str d.2))), (kDist, .obj [(kTarball, .str t), (kIntegrity, .str ('i' :: v))])]

def urlA : Str := "https://r/a".toList
def urlB : Str := "https://r/b".toList
def urlB' : Str := "https://r/c".toList

/-- a@1 depends on b -/
def docA : Json := .obj [(kTags, .obj [("latest".toList, .str ['1'])]), (kVersions, .obj [(['1'], entry ['1'] [(['b'], ['^', '1'])] urlA)])]
/-- b has two versions -/
def docB : Json := .obj [(kTags, .obj [("latest".toList, .str ['2'])]), (kVersions, .obj [(['1'], entry ['1'] [] urlB), (['2'], entry ['2'] [] urlB')])]

def k : Sys Nat Nat Str Str where
  base := { Fetch.ExF.env with spec := spec, world := world, json := fun _ => none, registry := fun _ _ => none, defaultTag := "latest".toList }
  answer _ n := if n = ['a'] then some docA else if n = ['b'] then some docB else none
  url := some
  parseJson _ := none
  concurrency := 10

/-- the project wants a, and b under the name c -/
def man : Oro.Manifest Str := { deps := [(['a'], ['^', '1']), (['c'], "npm:b@^2".toList)] }

def sa : PackageSpec Nat Nat Str := .npm none ['a'] (some (.range 1))
def sb : PackageSpec Nat Nat Str := .npm none ['b'] (some (.range 1))
def sc : PackageSpec Nat Nat Str := .alias ['c'] (.npm none ['b'] (some (.range 2)))

theorem parse_a : k.parse ['a'] ['^', '1'] = some sa := by decide +kernel
theorem parse_b : k.parse ['b'] ['^', '1'] = some sb := by decide +kernel
theorem parse_c : k.parse ['c'] "npm:b@^2".toList = some sc := by decide +kernel

theorem range_text (n : Nat) (h : n < 10) : ReqText spec ['^', Char.ofNat (48 + n)] (.range n) := by
  have : n = 0 ∨ n = 1 ∨ n = 2 ∨ n = 3 ∨ n = 4 ∨ n = 5 ∨ n = 6 ∨ n = 7 ∨ n = 8 ∨ n = 9 := by omega
  refine .range ⟨⟨'^', rfl, by decide, by decide, by decide⟩, ?_⟩ rfl ?_ <;>
    rcases this with rfl | rfl | rfl | rfl | rfl | rfl | rfl | rfl | rfl | rfl <;> decide
theorem version_text (n : Nat) (h : n < 10) : ReqText spec [Char.ofNat (48 + n)] (.version n) := by
  have : n = 0 ∨ n = 1 ∨ n = 2 ∨ n = 3 ∨ n = 4 ∨ n = 5 ∨ n = 6 ∨ n = 7 ∨ n = 8 ∨ n = 9 := by omega
  refine .version ⟨⟨Char.ofNat (48 + n), rfl, ?_⟩, ?_⟩ ?_ <;>
    rcases this with rfl | rfl | rfl | rfl | rfl | rfl | rfl | rfl | rfl | rfl <;> decide

theorem name_text (c : Char) (h : c ∈ ['a', 'b', 'c']) : NameText none [c] := by
  refine .plain (by simp) (fun x hx => ?_) ?_
  · rw [List.mem_singleton.1 hx]; clear hx; left; revert c; decide
  · revert c; decide

theorem asks_a : Asks spec ['a'] ['^', '1'] none ['a'] (some (.range 1)) := .own (name_text 'a' (by decide)) (range_text 1 (by decide))
theorem asks_b : Asks spec ['b'] ['^', '1'] none ['b'] (some (.range 1)) := .own (name_text 'b' (by decide)) (range_text 1 (by decide))
theorem asks_c : Asks spec ['c'] "npm:b@^2".toList none ['b'] (some (.range 2)) :=
  .other (t := ['b', '@', '^', '2']) (name_text 'c' (by decide)) (.req (m := ['b']) (name_text 'b' (by decide)) (range_text 2 (by decide)))

/-- what can be asked for -/
def Known (n : Str) (s : Option Str) (m : Str) (q : Option (VersionSpec Nat Nat)) : Prop :=
  (n = ['a'] ∧ s = none ∧ m = ['a'] ∧ q = some (.range 1)) ∨ (n = ['b'] ∧ s = none ∧ m = ['b'] ∧ q = some (.range 1)) ∨
    (n = ['c'] ∧ s = none ∧ m = ['b'] ∧ q = some (.range 2))

theorem slash : k.base.spec.alphabetic '/' = false := by decide

theorem known_a {s : Option Str} {m : Str} {q : Option (VersionSpec Nat Nat)} (h : Asks k.base.spec ['a'] ['^', '1'] s m q) : Known ['a'] s m q := by
  obtain ⟨x, h1, h2⟩ := asks_parse slash h
  rw [parse_a] at h1; cases h1
  rcases h2 with ⟨h, _⟩ | h
  · cases h; exact .inl ⟨rfl, rfl, rfl, rfl⟩
  · cases h
theorem known_b {s : Option Str} {m : Str} {q : Option (VersionSpec Nat Nat)} (h : Asks k.base.spec ['b'] ['^', '1'] s m q) : Known ['b'] s m q := by
  obtain ⟨x, h1, h2⟩ := asks_parse slash h
  rw [parse_b] at h1; cases h1
  rcases h2 with ⟨h, _⟩ | h
  · cases h; exact .inr (.inl ⟨rfl, rfl, rfl, rfl⟩)
  · cases h
theorem known_c {s : Option Str} {m : Str} {q : Option (VersionSpec Nat Nat)} (h : Asks k.base.spec ['c'] "npm:b@^2".toList s m q) : Known ['c'] s m q := by
  obtain ⟨x, h1, h2⟩ := asks_parse slash h
  rw [parse_c] at h1; cases h1
  rcases h2 with ⟨h, _⟩ | h
  · cases h
  · cases h; exact .inr (.inr ⟨rfl, rfl, rfl, rfl⟩)

/-- what there is -/
theorem listed {s : Option Str} {m : Str} {p : CPackument Nat Bundled Deprecation} (h : Knows k s m p) {x : Nat}
    {cv : CVersion Nat Bundled Deprecation} (hx : p.versions.get? x = some cv) :
    cv.manifest.version = some x ∧ cv.manifest.optionalDependencies = [] ∧ x < 10 ∧
    (cv.manifest.dependencies = [] ∨ cv.manifest.dependencies = [(['b'], ['^', '1'])]) ∧
    (cv.dist.tarball = some urlA ∨ cv.dist.tarball = some urlB ∨ cv.dist.tarball = some urlB') := by
  have hc := corgi_iff.2 h
  unfold Sys.corgi at hc
  have hmem := IMap.mem_of_get? hx
  show _ ∧ _ ∧ _ ∧ _ ∧ _
  have key : ∀ d ∈ [docA, docB], ∀ p, readPackument k.base.spec.parseV k.url d = some p → ∀ e ∈ p.versions,
      e.2.manifest.version = some e.1 ∧ e.2.manifest.optionalDependencies = [] ∧ e.1 < 10 ∧
      (e.2.manifest.dependencies = [] ∨ e.2.manifest.dependencies = [(['b'], ['^', '1'])]) ∧
      (e.2.dist.tarball = some urlA ∨ e.2.dist.tarball = some urlB ∨ e.2.dist.tarball = some urlB') := by
    intro d hd p hp
    simp only [List.mem_cons, List.not_mem_nil, or_false] at hd
    rcases hd with rfl | rfl
    · have : ((readPackument k.base.spec.parseV k.url docA).map fun p => decide (∀ e ∈ p.versions,
        e.2.manifest.version = some e.1 ∧ e.2.manifest.optionalDependencies = [] ∧ e.1 < 10 ∧
        (e.2.manifest.dependencies = [] ∨ e.2.manifest.dependencies = [(['b'], ['^', '1'])]) ∧
        (e.2.dist.tarball = some urlA ∨ e.2.dist.tarball = some urlB ∨ e.2.dist.tarball = some urlB'))) = some true := by decide +kernel
      rw [hp] at this
      simpa using this
    · have : ((readPackument k.base.spec.parseV k.url docB).map fun p => decide (∀ e ∈ p.versions,
        e.2.manifest.version = some e.1 ∧ e.2.manifest.optionalDependencies = [] ∧ e.1 < 10 ∧
        (e.2.manifest.dependencies = [] ∨ e.2.manifest.dependencies = [(['b'], ['^', '1'])]) ∧
        (e.2.dist.tarball = some urlA ∨ e.2.dist.tarball = some urlB ∨ e.2.dist.tarball = some urlB'))) = some true := by decide +kernel
      rw [hp] at this
      simpa using this
  obtain ⟨d, hd, hr⟩ := Option.bind_eq_some_iff.1 hc
  have hd : (if m = ['a'] then some docA else if m = ['b'] then some docB else none) = some d := hd
  split at hd
  · cases hd; exact key _ (by simp) p hr (x, cv) hmem
  · split at hd
    · cases hd; exact key _ (by simp) p hr (x, cv) hmem
    · cases hd

theorem sought_known {n : Str} {s : Option Str} {m : Str} {q : Option (VersionSpec Nat Nat)} (h : Sought k man n s m q) : Known n s m q := by
  cases h with
  | project hin ha =>
    simp only [man, List.append_nil, List.mem_cons, Prod.mk.injEq, List.not_mem_nil, or_false] at hin
    rcases hin with ⟨rfl, rfl⟩ | ⟨rfl, rfl⟩
    · exact known_a ha
    · exact known_c ha
  | package _ ho hin ha =>
    obtain ⟨p, h1, _, h2⟩ := ho
    obtain ⟨_, h3, _, h4, _⟩ := listed h1 h2
    rw [h3, List.append_nil] at hin
    rcases h4 with h4 | h4 <;> rw [h4] at hin
    · cases hin
    · simp only [List.mem_cons, Prod.mk.injEq, List.not_mem_nil, or_false] at hin
      obtain ⟨rfl, rfl⟩ := hin
      exact known_b ha

theorem usual : Usual k man where
  project d hd := by
    simp only [man, List.append_nil, List.mem_cons, List.not_mem_nil, or_false] at hd
    rcases hd with rfl | rfl
    · exact ⟨_, _, _, asks_a⟩
    · exact ⟨_, _, _, asks_c⟩
  packages n s m q x cv _ ho d hd := by
    obtain ⟨p, h1, _, h2⟩ := ho
    obtain ⟨_, h3, _, h4, _⟩ := listed h1 h2
    rw [h3, List.append_nil] at hd
    rcases h4 with h4 | h4 <;> rw [h4] at hd
    · cases hd
    · rw [List.mem_singleton.1 hd]
      exact ⟨_, _, _, asks_b⟩
  versions n s m q x cv _ ho := by
    obtain ⟨p, h1, _, h2⟩ := ho
    exact (listed h1 h2).1

theorem one_name : OneName k man := by
  intro n s m q s' m' q' h h'
  rcases sought_known h with ⟨rfl, rfl, rfl, _⟩ | ⟨rfl, rfl, rfl, _⟩ | ⟨rfl, rfl, rfl, _⟩ <;>
    rcases sought_known h' with ⟨h, rfl, rfl, _⟩ | ⟨h, rfl, rfl, _⟩ | ⟨h, rfl, rfl, _⟩ <;>
    first | exact ⟨rfl, rfl⟩ | exact absurd h (by decide)

theorem plain : Plain k man where
  requests n s m q h := by
    right
    rcases sought_known h with ⟨_, _, _, rfl⟩ | ⟨_, _, _, rfl⟩ | ⟨_, _, _, rfl⟩
    · exact ⟨1, rfl, rfl, range_text 1 (by decide)⟩
    · exact ⟨1, rfl, rfl, range_text 1 (by decide)⟩
    · exact ⟨2, rfl, rfl, range_text 2 (by decide)⟩
  versions n s m q x cv _ ho := by
    obtain ⟨p, h1, _, h2⟩ := ho
    exact version_text x (listed h1 h2).2.2.1
  addresses n s m q x cv t _ ho ht := by
    obtain ⟨p, h1, _, h2⟩ := ho
    obtain ⟨_, _, _, _, h3⟩ := listed h1 h2
    have key : ∀ t ∈ [urlA, urlB, urlB'], ['h','t','t','p'] <+: t ∧ spec.parseU t = some t := by decide +kernel
    have : t ∈ [urlA, urlB, urlB'] := by
      rcases h3 with h | h | h <;> rw [h] at ht <;> cases ht <;> decide +kernel
    exact ⟨(key t this).1, t, (key t this).2, rfl⟩

theorem offered {s : Option Str} {m : Str} {x r : Nat} {t i : Str}
    (h : ((k.corgi s m).map fun p => (p.tags.get? "latest".toList, (p.versions.get? x).map fun cv => (cv.dist.tarball, cv.dist.integrity))) =
      some (some x, some (some t, some i))) (hx : r ≤ x) :
    ∃ x cv t i, Offers k s m (some (.range r)) x cv ∧ cv.dist.tarball = some t ∧ Checksum k.base.world (versionMeta cv) i := by
  obtain ⟨p, hp, h⟩ := Option.map_eq_some_iff.1 h
  simp only [Prod.mk.injEq, Option.map_eq_some_iff] at h
  obtain ⟨htag, cv, hcv, ht, hi⟩ := h
  refine ⟨x, cv, t, some i, ⟨p, corgi_iff.1 hp, .preferred htag ⟨versionMeta cv, ?_⟩ ?_, hcv⟩, ht, .listed hi rfl⟩
  · rw [get_packumentOf, hcv]; rfl
  · show decide (r ≤ x) = true
    simpa using hx

theorem available : Available k man := by
  intro n s m q h
  rcases sought_known h with ⟨_, rfl, rfl, rfl⟩ | ⟨_, rfl, rfl, rfl⟩ | ⟨_, rfl, rfl, rfl⟩
  · exact offered (x := 1) (t := urlA) (i := ['i', '1']) (by decide +kernel) (by decide)
  · exact offered (x := 2) (t := urlB') (i := ['i', '2']) (by decide +kernel) (by decide)
  · exact offered (x := 2) (t := urlB') (i := ['i', '2']) (by decide +kernel) (by decide)

/-- nothing fails -/
example : ∃ root, Node.new k.env.parse ['p'] (.dir ['p'] ['.']) man true = some root ∧
    ∀ s, RReach k.env none root s → s.done = false → ∃ ev s', rstep k.env none s ev = some (.ok s') := by
  obtain ⟨root, h1, h2⟩ := C88_succeeds_partial usual available slash world_total (by decide) ['p'] (.dir ['p'] ['.'])
  exact ⟨root, h1, fun s h => (h2 s h).2⟩

def root : Node Str (Resolution Nat Nat Str Str) (PackageSpec Nat Nat Str) :=
  { name := ['p'], pkg := .dir ['p'] ['.'], reqs := [(['a'], (sa, .prod)), (['c'], (sc, .prod))] }

theorem root_new : Node.new k.env.parse ['p'] (.dir ['p'] ['.']) man true = some root := by decide +kernel

abbrev St := RState Str (Resolution Nat Nat Str Str) (PackageSpec Nat Nat Str)

def get : Option (Except ResolveErr St) → St
  | some (.ok s) => s
  | _ => rinit root
def ok : Option (Except ResolveErr St) → Bool
  | some (.ok _) => true
  | _ => false
theorem get_eq {x : Option (Except ResolveErr St)} (h : ok x = true) : x = some (.ok (get x)) := by
  unfold ok at h
  split at h
  · rfl
  · cases h

def events : List (REvent (PackageSpec Nat Nat Str)) :=
  [.pop, .pull, .pull, .complete sc, .complete sa, .deliver, .pop, .pop, .pull, .complete sb, .deliver, .pop]

def tree : St := get (rrun k.env none (rinit root) events)

theorem run_ok : ok (rrun k.env none (rinit root) events) = true := by decide +kernel
theorem reach : RReach k.env none root tree := rrun_reach events .init (get_eq run_ok)
theorem done : tree.done = true := by decide +kernel

/-- the tree: a@1, b@2 under the name c, and b@2 -/
example : (tree.graph.nodes.drop 1).map (fun nd => (nd.name, nd.pkg)) =
    [(['c'], .npm ['c'] 2 urlB' (some ['i', '2'])), (['a'], .npm ['a'] 1 urlA (some ['i', '1'])),
      (['b'], .npm ['b'] 2 urlB' (some ['i', '2']))] := by decide +kernel

/-- every package in it is one the registry lists -/
example (i : Nat) (nd : Node Str (Resolution Nat Nat Str Str) (PackageSpec Nat Nat Str)) (hi : tree.graph.nodes[i]? = some nd) (h0 : i ≠ 0) :
    ∃ s m q x cv, Sought k man nd.name s m q ∧ Offers k s m q x cv ∧ IsListed k nd.name x cv nd.pkg := by
  obtain ⟨s, m, q, x, cv, h1, h2, h3, _⟩ := C88_packages_partial usual slash world_total root_new reach i nd hi h0
  exact ⟨s, m, q, x, cv, h1, h2, h3⟩

theorem proper : man.Proper := by unfold Manifest.Proper; decide

/-- the project's requirements are met -/
example : Met k man tree.graph 0 ['c'] none ['b'] (some (.range 2)) :=
  (C88_links_partial usual slash world_total one_name proper root_new reach done).2.1 ['c'] _ .prod none ['b'] _
    (.inr (.inr ⟨rfl, by decide, by decide, by decide⟩)) asks_c

theorem flat : ∀ (i j : Nat) (a b : Node Str (Resolution Nat Nat Str Str) (PackageSpec Nat Nat Str)), i ≠ 0 → j ≠ 0 → tree.graph.nodes[i]? = some a →
    tree.graph.nodes[j]? = some b → a.name = b.name → i = j := by
  have hlen : tree.graph.nodes.length = 4 := by decide +kernel
  have key : ∀ i ∈ List.range 4, ∀ j ∈ List.range 4, i = 0 ∨ j = 0 ∨ i = j ∨ (tree.graph.nodes[i]?).map (·.name) ≠ (tree.graph.nodes[j]?).map (·.name) := by decide +kernel
  intro i j a b hi hj ha hb hab
  have h1 := lt_of_get ha
  have h2 := lt_of_get hb
  rw [hlen] at h1 h2
  rcases key i (List.mem_range.2 h1) j (List.mem_range.2 h2) with h | h | h | h
  · exact absurd h hi
  · exact absurd h hj
  · exact h
  · exact absurd (by rw [ha, hb]; simp [hab]) h

/-- resolving again when the registry is gone -/
example (c : Codec Nat Str) : ∃ l l', toLockfile k.view tree.graph = some l ∧ Lockfile.fromKdl c (l.toKdl c) = .ok l' ∧
    ∀ s, RReach (k.later (fun _ _ => none) 1).env (some (l'.tree (k.later (fun _ _ => none) 1).toPackage)) root s → s.done = true →
      ∀ π p, Installed s.graph π p ↔ Installed tree.graph π p := by
  obtain ⟨l, l', h1, h2, h3⟩ := C88_again_flat_partial usual plain slash world_total proper root_new reach done flat c (fun _ _ => none) 1
  exact ⟨l, l', h1, h2, fun s hs hd => ((h3 s hs).2.2 hd).1⟩

/-- what the lockfile says about a -/
example : ((toLockfile k.view tree.graph).bind fun l => l.packages.get? ['a']).map (fun n => (n.version, n.resolved, n.integrity))
    = some (some 1, some urlA, some ['i', '1']) := by decide +kernel
example : ((toLockfile k.view tree.graph).bind fun l => l.packages.get? ['a']).map (fun n => (n.section .prod).get? ['b']) = some (some ['^', '1']) := by
  decide +kernel

/-- a document in which version 2 says it is version 1: version 2's archive is installed as version 1 -/
def docOdd : Json := .obj [(kTags, .obj [("latest".toList, .str ['2'])]), (kVersions, .obj [(['1'], entry ['1'] [(['b'], ['^', '1'])] urlA), (['2'], entry ['1'] [] urlB)])]
def odd : Sys Nat Nat Str Str := { k with answer := fun _ _ => some docOdd }
example : odd.env.fetch sa = some (.npm ['a'] 1 urlB (some ['i', '1']), { deps := [(['b'], ['^', '1'])] }) := by decide +kernel

end ExK
end Stack
end Oro
