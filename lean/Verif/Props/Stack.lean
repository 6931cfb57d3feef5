import Verif.Spec.Stack
import Verif.Proofs.Closed
import Verif.Props.Documents
import Verif.Props.Fetch
import Verif.Props.LockPackage
import Verif.Props.Relocked
import Verif.Props.Works
import Verif.Props.Acyclic
/- C88: from the registry's documents to the lockfile, and back. -/

set_option linter.unusedSectionVars false

namespace Oro
namespace Stack
open PSpec Nassun Fetch
open Meta (CManifest CDist CVersion CPackument)
open Docs (Bundled Deprecation)

variable {V R U I : Type} [DecidableEq V] [DecidableEq R] [DecidableEq U] {k : Sys V R U I} {man : Manifest Str}

theorem corgi_iff {sc : Option Str} {n : Str} {p : CPackument V Bundled Deprecation} : k.corgi sc n = some p ↔ Knows k sc n p := by
  unfold Sys.corgi Knows
  rw [Option.bind_eq_some_iff]
  simp only [Docs.C79_packument]

theorem asks_parse (hE : k.base.spec.alphabetic '/' = false) {n text m : Str} {sc : Option Str} {q : Option (VersionSpec V R)}
    (h : Asks k.base.spec n text sc m q) : ∃ spec, k.parse n text = some spec ∧ AskSpec n sc m q spec := by
  cases h with
  | own h1 h2 =>
    refine ⟨.npm sc n _, ?_, .inl ⟨rfl, rfl⟩⟩
    unfold Sys.parse requirement
    rw [parse_written hE (.registry (.req h1 h2))]
  | other h1 h2 =>
    refine ⟨.alias n (.npm sc m q), ?_, .inr rfl⟩
    unfold Sys.parse requirement
    rw [parse_written hE (.alias h1 (.registry h2))]

theorem parse_ok {n text : Str} {spec : PackageSpec V R U} : k.parse n text = some spec ↔
    PSpec.parse k.base.spec (n ++ '@' :: text) = .ok spec := by
  unfold Sys.parse requirement
  constructor
  · intro h
    split at h
    · cases h; assumption
    · cases h
  · intro h; rw [h]

theorem AskSpec.unaliased {n : Str} {sc : Option Str} {m : Str} {q : Option (VersionSpec V R)} {spec : PackageSpec V R U}
    (h : AskSpec n sc m q spec) : Unaliased spec (.npm sc m q) := by
  rcases h with ⟨rfl, _⟩ | rfl
  · exact .npm
  · exact .alias .npm

theorem get_packumentOf (p : CPackument V Bundled Deprecation) (x : V) :
    (packumentOf p).versions.get? x = (p.versions.get? x).map versionMeta := IMap.get?_map versionMeta p.versions x

/-- what is fetched for a requirement: version and metadata are those in the registry's document -/
theorem fetch_ask (hle : TotalLe k.base.world.le) {n m : Str} {sc : Option Str} {q : Option (VersionSpec V R)} {spec : PackageSpec V R U}
    (h : AskSpec n sc m q spec) (r : Resolution V R U I) (mm : Manifest Str) :
    k.fetch spec = some (r, mm) ↔ ∃ p x cv t i mv, Knows k sc m p ∧ Chooses k.base.world (packumentOf p) k.base.defaultTag q x ∧
      p.versions.get? x = some cv ∧ cv.dist.tarball = some t ∧ Checksum k.base.world (versionMeta cv) i ∧
      r = .npm n (cv.manifest.version.getD k.base.world.zero) t i ∧
      p.versions.get? (cv.manifest.version.getD k.base.world.zero) = some mv ∧ mm = sections mv.manifest := by
  have htar : spec.target = .npm sc m q := (unaliased_det h.unaliased).symm
  have hres : ∀ name res, resolveSpec k.nassun spec = .ok (name, res) ↔ name = n ∧ ∃ p, k.nassun.registry sc m = some p ∧
      getResolution k.base.world k.base.baseDir k.base.defaultTag name spec p = .ok res := by
    rcases h with ⟨rfl, rfl⟩ | rfl
    · exact (C62_registry k.nassun _ sc m q (.inl rfl)).2
    · exact (C62_registry k.nassun _ sc m q (.inr ⟨n, rfl⟩)).2
  have hfetch : k.fetch spec = some (r, mm) ↔ ∃ name, resolveSpec k.nassun spec = .ok (name, r) ∧
      ∃ cm, k.corgiMetadata spec r = some cm ∧ mm = sections cm := by
    unfold Sys.fetch
    constructor
    · intro hf
      split at hf
      · next res hr =>
        obtain ⟨cm, h1, h2⟩ := Option.map_eq_some_iff.1 hf
        cases h2
        exact ⟨res.1, hr, cm, h1, rfl⟩
      · cases hf
    · rintro ⟨name, h1, cm, h2, rfl⟩
      rw [h1]
      simp only [h2, Option.map_some]
  rw [hfetch]
  constructor
  · rintro ⟨name, h1, cm, h2, rfl⟩
    obtain ⟨rfl, p', h3, h4⟩ := (hres name r).1 h1
    have h3' : (k.corgi sc m).map packumentOf = some p' := h3
    obtain ⟨p, h5, rfl⟩ := Option.map_eq_some_iff.1 h3'
    obtain ⟨sel, -, kind⟩ := C19_selection k.base.world hle (packumentOf p) k.base.baseDir k.base.defaultTag name spec sc m q h.unaliased
    obtain ⟨v, t, i, rfl⟩ := kind r h4
    obtain ⟨x, e, h6, h7, h8, h9, h10⟩ := (sel v t i).1 h4
    rw [get_packumentOf] at h7
    obtain ⟨cv, h11, rfl⟩ := Option.map_eq_some_iff.1 h7
    have h2' : (k.corgi sc m).bind (fun p => (p.versions.get? v).map (·.manifest)) = some cm := by
      unfold Sys.corgiMetadata at h2
      rw [htar] at h2
      exact h2
    rw [h5, Option.bind_some] at h2'
    obtain ⟨mv, h12, rfl⟩ := Option.map_eq_some_iff.1 h2'
    subst h8
    exact ⟨p, x, cv, t, i, mv, corgi_iff.1 h5, h6, h11, h9, h10, rfl, h12, rfl⟩
  · rintro ⟨p, x, cv, t, i, mv, h1, h2, h3, h4, h5, rfl, h6, rfl⟩
    have hc := corgi_iff.2 h1
    obtain ⟨sel, -, -⟩ := C19_selection k.base.world hle (packumentOf p) k.base.baseDir k.base.defaultTag n spec sc m q h.unaliased
    refine ⟨n, (hres n _).2 ⟨rfl, packumentOf p, ?_, (sel _ t i).2 ⟨x, versionMeta cv, h2, by rw [get_packumentOf, h3]; rfl, rfl, h4, h5⟩⟩, mv.manifest, ?_, rfl⟩
    · show (k.corgi sc m).map packumentOf = some _
      rw [hc]; rfl
    · unfold Sys.corgiMetadata
      rw [htar]
      show (k.corgi sc m).bind (fun p => (p.versions.get? _).map (·.manifest)) = _
      rw [hc, Option.bind_some, h6]; rfl

/-- tables of texts mention a name once -/
theorem texts_wf {names : List Str} {o : List (Str × Json)} {t : IMap Str Str} (h : Docs.Says names Docs.Texts [] o t) : t.WF := by
  rcases h with ⟨_, rfl⟩ | ⟨v, _, l, _, rfl⟩
  · exact IMap.wf_nil
  · exact IMap.wf_ofList l

theorem forall₂_mem {α β : Type} {R : α → β → Prop} {a : List α} {b : List β} (h : List.Forall₂ R a b) {y : β} (hy : y ∈ b) : ∃ x ∈ a, R x y := by
  induction h with
  | nil => cases hy
  | cons h1 _ ih =>
    rcases List.mem_cons.1 hy with rfl | hy
    · exact ⟨_, List.mem_cons_self .., h1⟩
    · obtain ⟨x, hx, hr⟩ := ih hy
      exact ⟨x, List.mem_cons_of_mem _ hx, hr⟩

/-- an entry of a document that is known was read from a JSON object -/
theorem Knows.entry {sc : Option Str} {n : Str} {p : CPackument V Bundled Deprecation} (h : Knows k sc n p) {x : V}
    {cv : CVersion V Bundled Deprecation} (hx : p.versions.get? x = some cv) : ∃ v, Docs.VersionAs k.base.spec.parseV k.url v cv := by
  obtain ⟨doc, _, o, _, hv, _⟩ := h
  rcases hv with ⟨_, h0⟩ | ⟨v, _, o', l, _, hl, h0⟩
  · rw [h0] at hx; cases hx
  · rw [h0] at hx
    obtain ⟨e, _, he⟩ := forall₂_mem hl (IMap.mem_ofList (IMap.mem_of_get? hx))
    exact ⟨e.2, he.2⟩

theorem Knows.proper {sc : Option Str} {n : Str} {p : CPackument V Bundled Deprecation} (h : Knows k sc n p) {x : V}
    {cv : CVersion V Bundled Deprecation} (hx : p.versions.get? x = some cv) : (sections cv.manifest).Proper := by
  obtain ⟨v, o, _, hd, _⟩ := h.entry hx
  exact ⟨texts_wf hd.dependencies, texts_wf hd.optionalDependencies, texts_wf hd.devDependencies⟩

/-- the requests that are made in a resolve -/
def Request (k : Sys V R U I) (man : Manifest Str) (n : Str) (spec : PackageSpec V R U) : Prop :=
  ∃ sc m q, Sought k man n sc m q ∧ AskSpec n sc m q spec

/-- what is fetched for what is sought is what the registry offers -/
theorem Usual.fetched (hu : Usual k man) (hle : TotalLe k.base.world.le) {n m : Str} {sc : Option Str} {q : Option (VersionSpec V R)}
    {spec : PackageSpec V R U} (hs : Sought k man n sc m q) (ha : AskSpec n sc m q spec) {r : Resolution V R U I} {mm : Manifest Str}
    (hf : k.fetch spec = some (r, mm)) : ∃ x cv, Offers k sc m q x cv ∧ IsListed k n x cv r ∧ mm = sections cv.manifest ∧ mm.Proper := by
  obtain ⟨p, x, cv, t, i, mv, h1, h2, h3, h4, h5, h6, h7, h8⟩ := (fetch_ask hle ha r mm).1 hf
  have ho : Offers k sc m q x cv := ⟨p, h1, h2, h3⟩
  have hv := hu.versions n sc m q x cv hs ho
  rw [hv, Option.getD_some] at h6 h7
  rw [h3] at h7; cases h7
  exact ⟨x, cv, ho, ⟨t, i, h6, h4, h5⟩, h8, by rw [h8]; exact h1.proper h3⟩

variable {nm : Str} {pk : Resolution V R U I} {root : Node Str (Resolution V R U I) (PackageSpec V R U)}
  {s : RState Str (Resolution V R U I) (PackageSpec V R U)}

theorem Usual.requests (hu : Usual k man) (hE : k.base.spec.alphabetic '/' = false) (hle : TotalLe k.base.world.le)
    (hr : Node.new k.env.parse nm pk man true = some root) (h : RReach k.env none root s) :
    (∀ (i : Nat) (nd : Node Str (Resolution V R U I) (PackageSpec V R U)), s.graph.nodes[i]? = some nd → i ≠ 0 →
      ∃ spec m, Request k man nd.name spec ∧ k.fetch spec = some (nd.pkg, m) ∧ mkReqs k.parse m false = some nd.reqs) ∧
    (∀ i n spec ty, Declares s.graph i n spec ty → Request k man n spec) := by
  refine RReach.closed (Q := Request k man) ⟨nm, pk, man, hr⟩ h ?_ ?_
  · intro n spec ty hg
    obtain ⟨raw, hin, hpa⟩ := mkReqs_from (nodeNew_spec hr).2.2.2.2.2 hg
    have hin : (n, raw) ∈ man.deps ++ man.optDeps ++ man.devDeps := by simpa using hin
    obtain ⟨sc, m, q, ha⟩ := hu.project _ hin
    obtain ⟨spec', h1, h2⟩ := asks_parse hE ha
    have hpa : k.parse n raw = some spec := hpa
    rw [hpa] at h1; cases h1
    exact ⟨sc, m, q, .project hin ha, h2⟩
  · rintro n spec p mm n' raw spec' ⟨sc, m, q, hs, ha⟩ hf hin hpa
    obtain ⟨x, cv, ho, _, rfl, _⟩ := hu.fetched hle hs ha hf
    obtain ⟨sc', m', q', ha'⟩ := hu.packages n sc m q x cv hs ho _ hin
    obtain ⟨spec'', h1, h2⟩ := asks_parse hE ha'
    have hpa : k.parse n' raw = some spec' := hpa
    rw [hpa] at h1; cases h1
    exact ⟨sc', m', q', .package hs ho hin ha', h2⟩

/-- **C88**, packages. At every moment of a resolve without a lockfile, whatever the schedule: every package in the tree is one that the
registry's documents list, in the version they choose for something that is required under its name – with the address, the checksum
and the requirements given there. -/
theorem C88_packages_partial (hu : Usual k man) (hE : k.base.spec.alphabetic '/' = false) (hle : TotalLe k.base.world.le)
    (hr : Node.new k.env.parse nm pk man true = some root) (h : RReach k.env none root s) (i : Nat)
    (nd : Node Str (Resolution V R U I) (PackageSpec V R U)) (hi : s.graph.nodes[i]? = some nd) (h0 : i ≠ 0) :
    ∃ sc m q x cv, Sought k man nd.name sc m q ∧ Offers k sc m q x cv ∧ IsListed k nd.name x cv nd.pkg ∧
      ∀ n spec ty, Declares s.graph i n spec ty ↔ ∃ text, Requires (sections cv.manifest) false n text ty ∧
        PSpec.parse k.base.spec (n ++ '@' :: text) = .ok spec := by
  obtain ⟨spec, mm, ⟨sc, m, q, hs, ha⟩, hf, hq⟩ := (hu.requests hE hle hr h).1 i nd hi h0
  obtain ⟨x, cv, ho, hl, rfl, hp⟩ := hu.fetched hle hs ha hf
  refine ⟨sc, m, q, x, cv, hs, ho, hl, fun n spec' ty => ?_⟩
  have := mkReqs_spec hp hq n spec' ty
  simp only [parse_ok] at this
  rw [← this]
  constructor
  · rintro ⟨y, hy, hyr⟩; rw [hi] at hy; cases hy; exact hyr
  · intro hx; exact ⟨nd, hi, hx⟩

theorem _root_.Oro.Requires.mem_root {mm : Manifest Str} {n text : Str} {ty : DepType} (h : Requires mm true n text ty) :
    (n, text) ∈ mm.deps ++ mm.optDeps ++ mm.devDeps := by
  rcases h with ⟨_, _, h⟩ | ⟨_, h, _⟩ | ⟨_, h, _⟩ <;> simp [h]

theorem _root_.Oro.Requires.mem_other {mm : Manifest Str} {n text : Str} {ty : DepType} (h : Requires mm false n text ty) :
    (n, text) ∈ mm.deps ++ mm.optDeps := by
  rcases h with ⟨_, h, _⟩ | ⟨_, h, _⟩ | ⟨_, h, _⟩
  · cases h
  · simp [h]
  · simp [h]

/-- **C88**, requirements. When such a resolve is done – and each name stands for one package throughout – every requirement of the project
and of every package in the tree is met. -/
theorem C88_links_partial (hu : Usual k man) (hE : k.base.spec.alphabetic '/' = false) (hle : TotalLe k.base.world.le)
    (hone : OneName k man) (hm : man.Proper) (hr : Node.new k.env.parse nm pk man true = some root) (h : RReach k.env none root s)
    (hd : s.done = true) :
    (∀ n text ty, Requires man true n text ty → ∃ sc m q, Asks k.base.spec n text sc m q) ∧
    (∀ n text ty sc m q, Requires man true n text ty → Asks k.base.spec n text sc m q → Met k man s.graph 0 n sc m q) ∧
    (∀ (i : Nat) (nd : Node Str (Resolution V R U I) (PackageSpec V R U)), s.graph.nodes[i]? = some nd → i ≠ 0 →
      ∃ sc0 m0 q0 x0 cv0, Sought k man nd.name sc0 m0 q0 ∧ Offers k sc0 m0 q0 x0 cv0 ∧ IsListed k nd.name x0 cv0 nd.pkg ∧
        (∀ n text ty, Requires (sections cv0.manifest) false n text ty → ∃ sc m q, Asks k.base.spec n text sc m q) ∧
        ∀ n text ty sc m q, Requires (sections cv0.manifest) false n text ty → Asks k.base.spec n text sc m q →
          Met k man s.graph i n sc m q) := by
  have hr' : IsRoot k.env root := ⟨nm, pk, man, hr⟩
  have hg := (h.sinv hr').pinv.ginv
  have met : ∀ i n spec ty sc m q, Declares s.graph i n spec ty → Sought k man n sc m q → AskSpec n sc m q spec →
      Met k man s.graph i n sc m q := by
    intro i n spec ty sc m q hdec hs ha
    obtain ⟨e, hl, _, hspec, _⟩ := (C04_all_linked hr' h hd).1 i n spec ty hdec
    obtain ⟨nd, kk, h1, h2, h3⟩ := id hl
    obtain ⟨e', jn, h4, _, h5, h6⟩ := hg.depReg i nd n kk h1 h2
    rw [h3] at h4; cases h4
    have hmem : e ∈ s.graph.edges := List.mem_of_getElem? h3
    rcases hg.sound e hmem jn h5 with hsat | ⟨mm, hf⟩
    · obtain ⟨sc', m', q', x, cv, hs', ho', hl', _⟩ := C88_packages_partial hu hE hle hr h e.dst jn h5 (Works.dst_ne_zero hr' h e hmem)
      rw [h6] at hs' hl'
      obtain ⟨rfl, rfl⟩ := hone n sc m q sc' m' q' hs hs'
      refine ⟨e, jn, q', x, cv, hl, h5, h6, hs', ho', hl', .inl ?_⟩
      obtain ⟨t, i, hp, _⟩ := hl'
      have hsat : (jn.pkg.satisfies k.base.world e.spec == some true) = true := hsat
      have htar : e.spec.target = .npm sc m q := by rw [hspec]; exact (unaliased_det ha.unaliased).symm
      rw [hp] at hsat
      unfold Resolution.satisfies at hsat
      rw [htar] at hsat
      cases q with
      | none => simp at hsat
      | some q =>
        cases q with
        | tag t => simp at hsat
        | version v => simpa [Allows] using hsat
        | range r => simpa [Allows] using hsat
    · rw [hspec] at hf
      obtain ⟨x, cv, ho, hl', _⟩ := hu.fetched hle hs ha hf
      exact ⟨e, jn, q, x, cv, hl, h5, h6, hs, ho, hl', .inr ho⟩
  refine ⟨?_, ?_, ?_⟩
  · intro n text ty hq
    exact hu.project (n, text) hq.mem_root
  · intro n text ty sc m q hq ha
    obtain ⟨spec, h1, h2⟩ := asks_parse hE ha
    refine met 0 n spec ty sc m q ?_ (.project hq.mem_root ha) h2
    obtain ⟨rd, h3, h4, _⟩ := h.root_reqs hr'
    exact ⟨rd, h3, by rw [h4]; exact (mkReqs_spec hm (nodeNew_spec hr).2.2.2.2.2 n spec ty).2 ⟨text, hq, h1⟩⟩
  · intro i nd hi h0
    obtain ⟨sc0, m0, q0, x0, cv0, hs, ho, hl, hdec⟩ := C88_packages_partial hu hE hle hr h i nd hi h0
    refine ⟨sc0, m0, q0, x0, cv0, hs, ho, hl, ?_, ?_⟩
    · intro n text ty hq
      exact hu.packages _ _ _ _ _ _ hs ho (n, text) hq.mem_other
    · intro n text ty sc m q hq ha
      obtain ⟨spec, h1, h2⟩ := asks_parse hE ha
      exact met i n spec ty sc m q ((hdec n spec ty).2 ⟨text, hq, parse_ok.1 h1⟩) (.package hs ho hq.mem_other ha) h2

/-- names of what is sought are written as names -/
theorem Sought.names {n m : Str} {sc : Option Str} {q : Option (VersionSpec V R)} (h : Sought k man n sc m q) :
    (∃ sn, NameText sn n) ∧ NameText sc m := by
  have : ∀ {n text m : Str} {sc : Option Str} {q : Option (VersionSpec V R)}, Asks k.base.spec n text sc m q → (∃ sn, NameText sn n) ∧ NameText sc m := by
    intro n text m sc q h
    cases h with
    | own h1 _ => exact ⟨⟨_, h1⟩, h1⟩
    | other h1 h2 =>
      cases h2 with
      | bare h => exact ⟨⟨_, h1⟩, h⟩
      | req h _ => exact ⟨⟨_, h1⟩, h⟩
  cases h with
  | project _ h => exact this h
  | package _ _ _ h => exact this h

theorem urlSafe_plain {t : Str} (h : UrlSafe t) : '/' ∉ t ∧ '@' ∉ t := by
  constructor <;> intro hc <;> rcases h _ hc with h | h <;> revert h <;> decide

theorem nameText_valid {sc : Option Str} {n : Str} (h : NameText sc n) : ValidName n := by
  cases h with
  | plain _ h2 _ =>
    refine .inl ⟨(urlSafe_plain h2).1, fun hh => (urlSafe_plain h2).2 ?_⟩
    exact List.mem_of_mem_head? hh
  | inScope _ h2 _ h3 => exact .inr ⟨_, _, rfl, (urlSafe_plain h2).1, (urlSafe_plain h3).1⟩

theorem valid_names (hu : Usual k man) (hE : k.base.spec.alphabetic '/' = false) (hle : TotalLe k.base.world.le)
    (hr : Node.new k.env.parse nm pk man true = some root) (h : RReach k.env none root s) (i : Nat)
    (nd : Node Str (Resolution V R U I) (PackageSpec V R U)) (h0 : i ≠ 0) (hi : s.graph.nodes[i]? = some nd) : ValidName nd.name := by
  obtain ⟨sc, m, q, x, cv, hs, _⟩ := C88_packages_partial hu hE hle hr h i nd hi h0
  obtain ⟨⟨sn, hn⟩, _⟩ := hs.names
  exact nameText_valid hn

/-- **C88**, lockfile. The lockfile of such a resolve: every entry is filed under the place of its package and has the version, the address,
the checksum and the requirements that the registry's document about that package gives for that version; the root entry has the
requirements of the project. -/
theorem C88_lockfile_partial (hu : Usual k man) (hE : k.base.spec.alphabetic '/' = false) (hle : TotalLe k.base.world.le) (hm : man.Proper)
    (hr : Node.new k.env.parse nm pk man true = some root) (h : RReach k.env none root s) (hd : s.done = true)
    {l : Lockfile V I} (hl : toLockfile k.view s.graph = some l) :
    Lists k man true l.root ∧ l.packages.WF ∧
    ∀ key ln, l.packages.get? key = some ln → ∃ up n sc m q x cv t, key = joinPath (up ++ [n]) ∧ ln.path = up ++ [n] ∧ ln.name = n ∧
      Sought k man n sc m q ∧ Offers k sc m q x cv ∧ ln.version = some x ∧ ln.resolved = some t ∧ cv.dist.tarball = some t ∧
      Checksum k.base.world (versionMeta cv) ln.integrity ∧ Lists k (sections cv.manifest) false ln := by
  have hr' : IsRoot k.env root := ⟨nm, pk, man, hr⟩
  have hg := (h.sinv hr').pinv.ginv
  have hv := valid_names hu hE hle hr h
  obtain ⟨_, hwf, hent, hroot⟩ := C15_one_entry_each hr' h hv hl
  have hlink : ∀ i m raw ty, (∃ e, Linked s.graph i m e ∧ e.ty = ty ∧ k.view.reqStr e.spec = raw) ↔
      ∃ spec, Declares s.graph i m spec ty ∧ raw = PackageSpec.requested k.base.spec spec := by
    intro i m raw ty
    constructor
    · rintro ⟨e, h1, rfl, rfl⟩
      obtain ⟨nd, kk, g1, g2, g3⟩ := id h1
      obtain ⟨e', dn, f1, f2, f3, f4⟩ := hg.depReg i nd m kk g1 g2
      rw [g3] at f1; cases f1
      obtain ⟨nd', dn', p1, p2, p3, p4⟩ := hg.edgeReg kk e g3
      rw [f3] at p2; cases p2
      rw [f4] at p4
      rw [f2] at p1
      exact ⟨e.spec, ⟨nd', p1, p4⟩, rfl⟩
    · rintro ⟨spec, h1, rfl⟩
      obtain ⟨e, h2, _, rfl, rfl⟩ := (C04_all_linked hr' h hd).1 i m spec ty h1
      exact ⟨e, h2, rfl, rfl⟩
  refine ⟨?_, hwf, ?_⟩
  · intro ty n raw
    rw [hroot ty n raw, hlink]
    obtain ⟨rd, h3, h4, _⟩ := h.root_reqs hr'
    constructor
    · rintro ⟨spec, ⟨nd, a, b⟩, c⟩
      rw [h3] at a; cases a
      rw [h4] at b
      obtain ⟨text, x, y⟩ := (mkReqs_spec hm (nodeNew_spec hr).2.2.2.2.2 n spec ty).1 b
      exact ⟨text, spec, x, parse_ok.1 y, c⟩
    · rintro ⟨text, spec, x, y, c⟩
      exact ⟨spec, ⟨rd, h3, by rw [h4]; exact (mkReqs_spec hm (nodeNew_spec hr).2.2.2.2.2 n spec ty).2 ⟨text, x, parse_ok.2 y⟩⟩, c⟩
  · intro key ln hget
    obtain ⟨i, h0, hi, hln, hkey⟩ := toLockfile_entry hl (IMap.mem_of_get? hget)
    obtain ⟨nd, hnd⟩ : ∃ nd, s.graph.nodes[i]? = some nd := ⟨_, List.getElem?_eq_getElem hi⟩
    have hloc : LocatedAt s.graph i (s.graph.nodePath i) := (locatedAt_iff hg.folderTree hg.ord).2 ⟨⟨nd, hnd⟩, rfl⟩
    have hpath : ln.path = s.graph.nodePath i := (lockNode_path hln).1
    obtain ⟨p, pn, hpar, _, _, _⟩ := hg.par i nd hnd h0
    obtain ⟨up, hup⟩ : ∃ up, s.graph.nodePath i = up ++ [nd.name] := ⟨_, nodePath_inside hg.ord hnd hpar⟩
    obtain ⟨ln', e1, e2, e3, e4, e5⟩ := hent i nd _ h0 hnd hloc
    have hkey : key = joinPath ln.path := hkey
    rw [hkey, hpath, e1] at hget; cases hget
    obtain ⟨sc, m, q, x, cv, hs, ho, ⟨t, j, hp, ht, hck⟩, hdec⟩ := C88_packages_partial hu hE hle hr h i nd hnd h0
    rw [hp] at e4 e3
    obtain ⟨r1, r2, r3⟩ := e4
    refine ⟨up, nd.name, sc, m, q, x, cv, t, by rw [hkey, hpath, hup], by rw [hpath, hup], e3, hs, ho, r2, r1, ht, by rw [r3]; exact hck, ?_⟩
    intro ty n raw
    rw [e5 ty n raw, hlink]
    constructor
    · rintro ⟨spec, a, b⟩
      obtain ⟨text, x, y⟩ := (hdec n spec ty).1 a
      exact ⟨text, spec, x, y, b⟩
    · rintro ⟨text, spec, x, y, b⟩
      exact ⟨spec, (hdec n spec ty).2 ⟨text, x, y⟩, b⟩

/-- what is written about a request can be read again -/
theorem Plain.reads (hp : Plain k man) (hE : k.base.spec.alphabetic '/' = false) {n m : Str} {sc : Option Str} {q : Option (VersionSpec V R)}
    {spec : PackageSpec V R U} (hs : Sought k man n sc m q) (ha : AskSpec n sc m q spec) :
    k.parse n (PackageSpec.requested k.base.spec spec) = some spec := by
  obtain ⟨⟨sn, hn⟩, hm⟩ := hs.names
  obtain ⟨vs, rfl, hq⟩ : ∃ vs, q = some vs ∧ ReqText k.base.spec (vs.show k.base.spec) vs := by
    rcases hp.requests n sc m q hs with ⟨v, rfl, hv⟩ | ⟨r, rfl, _, hr⟩
    · exact ⟨_, rfl, hv⟩
    · exact ⟨_, rfl, hr⟩
  rw [parse_ok]
  rcases ha with ⟨rfl, rfl⟩ | rfl
  · exact parse_written hE (.registry (.req hm hq))
  · exact parse_written hE (.alias hn (.registry (.req hm hq)))

theorem mkReqs_root_none {S : Type} {parse : Str → Str → Option S} {m : Manifest Str} (h : mkReqs parse m true = none) :
    ∃ n raw, (n, raw) ∈ m.deps ++ m.optDeps ++ m.devDeps ∧ parse n raw = none := by
  have gen : ∀ (l : List ((Str × Str) × DepType)) (acc : IMap Str (S × DepType)), reqFold parse (some acc) l = none →
      ∃ d ∈ l, parse d.1.1 d.1.2 = none := by
    intro l
    induction l with
    | nil => intro acc h; cases h
    | cons d l ih =>
      intro acc h
      simp only [reqFold, List.foldl_cons] at h
      cases hp : parse d.1.1 d.1.2 with
      | none => exact ⟨d, by simp, hp⟩
      | some spec =>
        rw [hp] at h
        obtain ⟨x, hx, hy⟩ := ih _ h
        exact ⟨x, List.mem_cons_of_mem _ hx, hy⟩
  obtain ⟨d, hd, hp⟩ := gen _ _ h
  simp only [if_true, List.mem_append, List.mem_map] at hd
  rcases hd with (⟨x, hx, rfl⟩ | ⟨x, hx, rfl⟩) | ⟨x, hx, rfl⟩
  · exact ⟨x.1, x.2, by simp [hx], hp⟩
  · exact ⟨x.1, x.2, by simp [hx], hp⟩
  · exact ⟨x.1, x.2, by simp [hx], hp⟩

/-- **C88**, success. If all that is sought can be had, the resolve begins, nothing in it ever fails, and as long as it is not done it goes on. (That it
gets done at all is C77: it need not.) -/
theorem C88_succeeds_partial (hu : Usual k man) (hav : Available k man) (hE : k.base.spec.alphabetic '/' = false) (hle : TotalLe k.base.world.le)
    (hc : 0 < k.concurrency) (nm : Str) (pk : Resolution V R U I) :
    ∃ root, Node.new k.env.parse nm pk man true = some root ∧ ∀ s, RReach k.env none root s →
      (∀ ev r, rstep k.env none s ev = some r → ∃ s', r = .ok s') ∧
      (s.done = false → ∃ ev s', rstep k.env none s ev = some (.ok s')) := by
  obtain ⟨root, hr⟩ : ∃ root, Node.new k.env.parse nm pk man true = some root := by
    unfold Node.new
    cases hq : mkReqs k.env.parse man true with
    | some r => exact ⟨_, rfl⟩
    | none =>
      obtain ⟨n, raw, hin, hpa⟩ := mkReqs_root_none hq
      obtain ⟨sc, m, q, ha⟩ := hu.project _ hin
      obtain ⟨spec, h1, _⟩ := asks_parse hE ha
      have hpa : k.parse n raw = none := hpa
      rw [hpa] at h1; cases h1
  refine ⟨root, hr, fun s h => ?_⟩
  have hr' : IsRoot k.env root := ⟨nm, pk, man, hr⟩
  have hreq := (hu.requests hE hle hr h).2
  have hpre := (h.sinv hr').pinv.pre
  have hwait : ∀ d ∈ s.waiting, Request k man d.name d.spec := by
    intro d hd
    obtain ⟨x, k1, k2, _⟩ := hpre d hd
    exact hreq d.node d.name d.spec d.ty ⟨x, k1, k2⟩
  have hok : ∀ ev r, rstep k.env none s ev = some r → ∃ s', r = .ok s' := by
    intro ev r hst
    cases r with
    | ok s' => exact ⟨s', rfl⟩
    | error e =>
      cases C09_why hr' h hst with
      | @noAnswer d hd hf =>
        obtain ⟨sc, m, q, hs, ha⟩ := hwait d hd
        obtain ⟨x, cv, t, i, ho, ht, hi⟩ := hav _ _ _ _ hs
        obtain ⟨p, h1, h2, h3⟩ := id ho
        have hv := hu.versions _ _ _ _ _ _ hs ho
        have := (fetch_ask hle ha (.npm d.name x t i) (sections cv.manifest)).2
          ⟨p, x, cv, t, i, cv, h1, h2, h3, ht, hi, by rw [hv]; rfl, by rw [hv]; exact h3, rfl⟩
        have hf : k.fetch d.spec = none := hf
        rw [hf] at this; cases this
      | @unreadable d p mm n raw hd hf hin hpa =>
        obtain ⟨sc, m, q, hs, ha⟩ := hwait d hd
        obtain ⟨x, cv, ho, _, rfl, _⟩ := hu.fetched hle hs ha hf
        obtain ⟨sc', m', q', ha'⟩ := hu.packages _ _ _ _ _ _ hs ho _ hin
        obtain ⟨spec, h1, _⟩ := asks_parse hE ha'
        have hpa : k.parse n raw = none := hpa
        rw [hpa] at h1; cases h1
      | unreadableEntry h _ _ _ _ => cases h
      | badEntry h _ _ => cases h
  refine ⟨hok, fun hd => ?_⟩
  obtain ⟨ev, r, hst⟩ := (C06_counts hr' h).2.2.1 hc hd
  obtain ⟨s', rfl⟩ := hok ev r hst
  exact ⟨ev, s', hst⟩

/-- **C88**, again. After such a resolve – of plain requirements, with a sound and unambiguous tree – the lockfile that was written is read
back, and resolving again from it, whatever the registry says by now, asks for nothing, never fails, installs the same packages at
the same places and writes the same lockfile. Nothing is assumed about what can be read back: this follows from what the documents say. -/
theorem C88_again_partial (hu : Usual k man) (hp : Plain k man) (hE : k.base.spec.alphabetic '/' = false) (hle : TotalLe k.base.world.le)
    (hm : man.Proper) (hr : Node.new k.env.parse nm pk man true = some root) {s0 : RState Str (Resolution V R U I) (PackageSpec V R U)}
    (h0 : RReach k.env none root s0) (hd0 : s0.done = true) (hll : LinksLoad s0.graph) (hone : Unambiguous k.env s0.graph)
    (c : Codec V I) (answer : Option Str → Str → Option Json) (concurrency : Nat) :
    ∃ l l', toLockfile k.view s0.graph = some l ∧ Lockfile.fromKdl c (l.toKdl c) = .ok l' ∧
      ∀ s, RReach (k.later answer concurrency).env (some (l'.tree (k.later answer concurrency).toPackage)) root s →
        s.waiting = [] ∧
        (∀ ev r, rstep (k.later answer concurrency).env (some (l'.tree (k.later answer concurrency).toPackage)) s ev = some r → ∃ s', r = .ok s') ∧
        (s.done = true → (∀ π p, Installed s.graph π p ↔ Installed s0.graph π p) ∧
          ∃ l2, toLockfile k.view s.graph = some l2 ∧ l2.toKdl c = l.toKdl c) := by
  have hr' : IsRoot k.env root := ⟨nm, pk, man, hr⟩
  have hg := (h0.sinv hr').pinv.ginv
  have hv := valid_names hu hE hle hr h0
  obtain ⟨l, hl⟩ := toLockfile_isSome hg.folderTree k.view
  obtain ⟨l', hl', _⟩ := C13_roundtrip (c := c) hr' h0 hl
  have hq := (hu.requests hE hle hr h0).2
  refine ⟨l, l', hl, hl', fun s hs => ?_⟩
  refine C16_partial (env := k.env) (v := k.view) hr hm h0 hd0 hll ?_ hone hv ?_ ?_ hl hl' (k.later answer concurrency).fetch concurrency hs
  · intro i n spec ty p m' hdec hf
    obtain ⟨sc, m, q, hs, ha⟩ := hq i n spec ty hdec
    obtain ⟨x, cv, ⟨pp, _, hch, _⟩, ⟨t, j, rfl, _⟩, _⟩ := hu.fetched hle hs ha hf
    show (Resolution.satisfies k.base.world _ spec == some true) = true
    unfold Resolution.satisfies
    rw [(unaliased_det ha.unaliased).symm]
    rcases hp.requests n sc m q hs with ⟨v, rfl, _⟩ | ⟨r, rfl, hstar, _⟩
    · cases hch; simp
    · cases hch with
      | preferred _ _ h => simp [h]
      | highest _ h _ _ => simp [h]
      | star h _ _ _ => rw [hstar] at h; cases h
  · intro i n spec ty _ hdec
    obtain ⟨sc, m, q, hs, ha⟩ := hq i n spec ty hdec
    exact hp.reads hE hs ha
  · intro i nd ln hi0 hi hname hrec
    obtain ⟨sc, m, q, x, cv, hs, ho, ⟨t, j, hpk, ht, _⟩, _⟩ := C88_packages_partial hu hE hle hr h0 i nd hi hi0
    obtain ⟨⟨sn, hn⟩, _⟩ := hs.names
    obtain ⟨hhttp, u, hu1, hu2⟩ := hp.addresses _ _ _ _ _ _ _ hs ho ht
    obtain ⟨fr, hto⟩ := C60_reads_back_partial k.base.spec hE ln sn (by rw [hname]; exact hn) nd.pkg
      (by rw [hpk]; exact .npm (hp.versions _ _ _ _ _ _ hs ho) hhttp hu1 hu2) (by rw [hpk, hname]; rfl) hrec
    show Sys.toPackage _ ln = _
    unfold Sys.toPackage
    have : ln.toPackage (k.later answer concurrency).base.spec = .package ln.name fr nd.pkg := hto
    rw [this]

/-- **C88**, again, for trees in which no name is there twice: nothing is assumed about the tree. -/
theorem C88_again_flat_partial (hu : Usual k man) (hp : Plain k man) (hE : k.base.spec.alphabetic '/' = false) (hle : TotalLe k.base.world.le)
    (hm : man.Proper) (hr : Node.new k.env.parse nm pk man true = some root) {s0 : RState Str (Resolution V R U I) (PackageSpec V R U)}
    (h0 : RReach k.env none root s0) (hd0 : s0.done = true)
    (hflat : ∀ (i j : Nat) (a b : Node Str (Resolution V R U I) (PackageSpec V R U)), i ≠ 0 → j ≠ 0 → s0.graph.nodes[i]? = some a →
      s0.graph.nodes[j]? = some b → a.name = b.name → i = j)
    (c : Codec V I) (answer : Option Str → Str → Option Json) (concurrency : Nat) :
    ∃ l l', toLockfile k.view s0.graph = some l ∧ Lockfile.fromKdl c (l.toKdl c) = .ok l' ∧
      ∀ s, RReach (k.later answer concurrency).env (some (l'.tree (k.later answer concurrency).toPackage)) root s →
        s.waiting = [] ∧
        (∀ ev r, rstep (k.later answer concurrency).env (some (l'.tree (k.later answer concurrency).toPackage)) s ev = some r → ∃ s', r = .ok s') ∧
        (s.done = true → (∀ π p, Installed s.graph π p ↔ Installed s0.graph π p) ∧
          ∃ l2, toLockfile k.view s.graph = some l2 ∧ l2.toKdl c = l.toKdl c) := by
  obtain ⟨hll, hone⟩ := h0.flat (env' := k.env) ⟨nm, pk, man, hr⟩ hflat
  exact C88_again_partial hu hp hE hle hm hr h0 hd0 hll hone c answer concurrency

/-- **C88** fails for an entry that says to be another version than it is listed as: what is installed is that entry's archive, under the
other version's number and with the other version's requirements; and if there is no entry for the other version, nothing is, whatever
else the document offers. (An entry without a version counts as one that says `0.0.0`.) -/
theorem C88_mislabelled_fails (hE : k.base.spec.alphabetic '/' = false) (hle : TotalLe k.base.world.le) {n text m t : Str} {sc : Option Str}
    {q : Option (VersionSpec V R)} (ha : Asks k.base.spec n text sc m q) {p : CPackument V Bundled Deprecation} (hk : Knows k sc m p)
    {x y : V} {cv : CVersion V Bundled Deprecation} (hch : Chooses k.base.world (packumentOf p) k.base.defaultTag q x)
    (hx : p.versions.get? x = some cv) (hy : cv.manifest.version.getD k.base.world.zero = y) (ht : cv.dist.tarball = some t) {i : Option I}
    (hi : Checksum k.base.world (versionMeta cv) i) :
    ∃ spec, k.env.parse n text = some spec ∧
      (∀ mv, p.versions.get? y = some mv → k.env.fetch spec = some (.npm n y t i, sections mv.manifest)) ∧
      (p.versions.get? y = none → k.env.fetch spec = none) := by
  obtain ⟨spec, h1, h2⟩ := asks_parse hE ha
  refine ⟨spec, h1, fun mv hmv => ?_, fun hno => ?_⟩
  · subst hy
    exact (fetch_ask hle h2 _ _).2 ⟨p, x, cv, t, i, mv, hk, hch, hx, ht, hi, rfl, hmv, rfl⟩
  · cases hf : k.env.fetch spec with
    | none => rfl
    | some r =>
      obtain ⟨r, mm⟩ := r
      obtain ⟨p', x', cv', t', i', mv', a1, a2, a3, _, _, _, a7, _⟩ := (fetch_ask hle h2 r mm).1 hf
      have := corgi_iff.2 a1
      rw [corgi_iff.2 hk] at this; cases this
      have hxx : x = x' := chooses_unique hle hch a2
      subst hxx
      rw [hx] at a3; cases a3
      rw [hy, hno] at a7; cases a7

end Stack
end Oro
