import Verif.Spec.Add
import Verif.Props.Fetch
import Verif.Props.Specs
import Verif.Props.Cli
/- C74: what `oro add` writes. -/

set_option linter.unusedSectionVars false

namespace Oro
namespace Add
open PSpec Nassun Fetch

variable {V R U I : Type} [DecidableEq V]

theorem asked_written {E : SpecEnv V R U} {t : Str} {other sc : Option Str} {m : Str} {q : Option (VersionSpec V R)}
    (h : Asked E t other sc m q) : Written E t (spec other sc m q) := by
  cases h with
  | plain h => exact .registry h
  | @other t m a sa sc q ha h =>
    have := Written.alias ha (AliasedText.registry h)
    simpa [List.append_assoc, spec] using this

theorem registryName {E : SpecEnv V R U} {t : Str} {sc : Option Str} {m : Str} {q : Option (VersionSpec V R)}
    (h : RegistryText E t (.npm sc m q)) : NameText sc m := by
  cases h with
  | bare h => exact h
  | req h _ => exact h

theorem spec_target {other sc : Option Str} {m : Str} {q : Option (VersionSpec V R)} :
    (spec other sc m q : PackageSpec V R U).target = .npm sc m q := by cases other <;> rfl

theorem spec_pick {other sc : Option Str} {m : Str} {q : Option (VersionSpec V R)} :
    (spec other sc m q : PackageSpec V R U) = .npm sc m q ∨ ∃ a, (spec other sc m q : PackageSpec V R U) = .alias a (.npm sc m q) := by
  cases other with
  | none => exact .inl rfl
  | some a => exact .inr ⟨a, rfl⟩

/-- **C74**: a registry package asked for by its name, with or without a request and another name to go by, gets an entry
under that name whose requirement is the prefix and the version found; and this is read as a requirement on the same package
with the request that the prefix and the version are. -/
theorem C74_registry (e : FetchEnv V R U I) (hE : e.spec.alphabetic '/' = false) (pre t : Str) (other sc : Option Str) (m : Str)
    (q : Option (VersionSpec V R)) (h : Asked e.spec t other sc m q) (n text : Str) (ht : addText e pre t = .ok (n, text)) :
    ∃ v tb i, resolveSpec e (spec other sc m q) = .ok (n, .npm n v tb i) ∧ n = called other m ∧
      text = entryText other m (pre ++ e.spec.showV v) ∧
      ∀ q', ReqText e.spec (pre ++ e.spec.showV v) q' → requirement e.spec n text = .ok (spec other sc m (some q')) := by
  unfold addText at ht
  rw [parse_written hE (asked_written h)] at ht
  dsimp only at ht
  rw [Fetch.bind_ok] at ht
  obtain ⟨⟨n', res⟩, h1, h2⟩ := ht
  rw [spec_target] at h2
  dsimp only at h2
  obtain ⟨_, hreg⟩ := C62_registry e (spec other sc m q) sc m q spec_pick
  obtain ⟨hn, p, hp, hg⟩ := (hreg n' res).1 h1
  obtain ⟨v, tb, i, rfl⟩ : ∃ v tb i, res = .npm n' v tb i := by
    unfold getResolution at hg
    rw [spec_target] at hg
    dsimp only at hg
    repeat' split at hg
    all_goals first | cases hg | skip
    exact ⟨_, _, _, rfl⟩
  simp only [Out.ok.injEq, Prod.mk.injEq] at h2
  obtain ⟨rfl, h2⟩ := h2
  have hn' : n' = called other m := by
    rw [hn]; cases other <;> rfl
  have htext : text = entryText other m (pre ++ e.spec.showV v) := by
    rw [← h2]
    cases other with
    | none => rfl
    | some a => simp [spec, PackageSpec.modifyTarget, PackageSpec.isAlias, withRequest, PackageSpec.requested, PackageSpec.show, showReq,
        VersionSpec.show, entryText, kNpm]
  refine ⟨v, tb, i, h1, hn', htext, ?_⟩
  intro q' hq
  unfold requirement
  refine parse_written hE ?_
  rw [htext, hn']
  cases h with
  | plain h => exact .registry (.req (registryName h) hq)
  | other ha h =>
    have := Written.alias ha (AliasedText.registry (.req (registryName h) hq))
    simpa [List.append_assoc, spec, entryText, called] using this

/-- **C74**: with the default prefix, and any other that makes a range around the version: the version found is in the range
that is written, and whatever version is later chosen for the entry is in the range as well (if the range is not `*`). -/
theorem C74_range (e : FetchEnv V R U I) (hE : e.spec.alphabetic '/' = false) (hle : TotalLe e.world.le) (pre t : Str) (other sc : Option Str)
    (m : Str) (q : Option (VersionSpec V R)) (h : Asked e.spec t other sc m q) (n text : Str) (ht : addText e pre t = .ok (n, text))
    (hpre : ∀ v tb i, resolveSpec e (spec other sc m q) = .ok (n, .npm n v tb i) → ∃ r, ReqText e.spec (pre ++ e.spec.showV v) (.range r) ∧ e.world.sat r v = true ∧ e.world.isStar r = false) :
    ∃ v tb i s r, resolveSpec e (spec other sc m q) = .ok (n, .npm n v tb i) ∧ requirement e.spec n text = .ok s ∧
      e.world.sat r v = true ∧ (Resolution.npm n v tb i : Resolution V R U I).satisfies e.world s = some true ∧
      ∀ (later : FetchEnv V R U I) (n' : Str) (res : Resolution V R U I), later.spec = e.spec → later.world = e.world →
        (∀ p, later.registry sc m = some p → Consistent p) → resolveSpec later s = .ok (n', res) →
        n' = n ∧ ∃ v' tb' i', res = .npm n v' tb' i' ∧ e.world.sat r v' = true := by
  obtain ⟨v, tb, i, h1, h2, h3, h4⟩ := C74_registry e hE pre t other sc m q h n text ht
  obtain ⟨r, hr, hsat, hstar⟩ := hpre v tb i h1
  have hun : ∀ q : Option (VersionSpec V R), Unaliased (spec other sc m q : PackageSpec V R U) (.npm sc m q) := by
    intro q
    cases other with
    | none => exact .npm
    | some a => exact .alias .npm
  refine ⟨v, tb, i, _, r, h1, h4 _ hr, hsat, ?_, ?_⟩
  · exact ((C20_satisfies e.world _ _ (hun _)).2.1 n v tb i sc m r rfl).2 hsat
  · intro later n' res hls hlw hcons hres
    obtain ⟨_, hreg⟩ := C62_registry later (spec other sc m (some (.range r))) sc m (some (.range r)) spec_pick
    obtain ⟨hn, p, hp, hg⟩ := (hreg n' res).1 hres
    have hn' : n' = n := by
      rw [hn, h2]; cases other <;> rfl
    subst hn'
    refine ⟨rfl, ?_⟩
    have hle' : TotalLe later.world.le := by rw [hlw]; exact hle
    obtain ⟨v', tb', i', rfl⟩ := (C19_selection later.world hle' p later.baseDir later.defaultTag n' _ sc m _ (hun _)).2.2 res hg
    refine ⟨v', tb', i', rfl, ?_⟩
    have := (C19_sound later.world hle' p (hcons p hp) later.baseDir later.defaultTag n' _ sc m _ (hun _) v' tb' i' hg).2
    rw [hlw] at this
    rcases this with h | ⟨r', h, hs, _⟩
    · exact h
    · cases h; rw [hstar] at hs; cases hs

/-- **C74** without a prefix: the entry asks for exactly the version found. -/
theorem C74_exact (e : FetchEnv V R U I) (hE : e.spec.alphabetic '/' = false) (t : Str) (other sc : Option Str) (m : Str)
    (q : Option (VersionSpec V R)) (h : Asked e.spec t other sc m q) (n text : Str) (ht : addText e [] t = .ok (n, text))
    (hshow : ∀ v tb i, resolveSpec e (spec other sc m q) = .ok (n, .npm n v tb i) → PrintsV e.spec v) :
    ∃ v tb i, resolveSpec e (spec other sc m q) = .ok (n, .npm n v tb i) ∧
      requirement e.spec n text = .ok (spec other sc m (some (.version v))) := by
  obtain ⟨v, tb, i, h1, h2, h3, h4⟩ := C74_registry e hE [] t other sc m q h n text ht
  exact ⟨v, tb, i, h1, h4 _ (.version (hshow v tb i h1).2 (hshow v tb i h1).1)⟩

/-- **C74**, for repositories given by their address, alone or with a name: the entry is read as a requirement on the same
repository at the same commit or range, under the package's name. -/
theorem C74_git_partial (e : FetchEnv V R U I) (hE : e.spec.alphabetic '/' = false) (hord : TotalLe e.world.le) (pre t : Str)
    (i : GitInfo R U) (hf : GitForm e.spec t i) (hp : GitPrints e.spec i) (a : Str) (c : Option Str) (s : Option R)
    (ha : HasAddress e i a c s)
    (htag : ∀ r, e.clone a = some r → ∀ t ∈ r.tags, ∀ v, e.spec.parseV t = some v → e.spec.showV v = t)
    (n text : Str) (ht : addText e pre t = .ok (n, text)) (sn : Option Str) (hn : NameText sn n) :
    resolveSpec e (.git i) = .ok (n, .git n i) ∧ requirement e.spec n text = .ok (.alias n (.git i)) ∧
      resolveSpec e (.alias n (.git i)) = .ok (n, .git n i) := by
  unfold addText at ht
  rw [parse_written hE (.git hf)] at ht
  dsimp only at ht
  rw [Fetch.bind_ok] at ht
  obtain ⟨⟨n', res⟩, h1, h2⟩ := ht
  simp only [PackageSpec.target, Out.ok.injEq, Prod.mk.injEq] at h2
  obtain ⟨rfl, rfl⟩ := h2
  have hres := C62_git_partial e hord i a c s ha htag n' res
  obtain ⟨rfl, p, hfound⟩ := hres.1.1 h1
  refine ⟨h1, ?_, (hres.2 n').2 ⟨rfl, rfl, _, p, hfound⟩⟩
  have hw := parse_written (E := e.spec) hE (.alias hn (AliasedText.git hf))
  exact parse_show hw hp

/-- **C74 fails** for directories: whatever directory is asked for, the entry that is made for it crashes every command that
reads it – this one included, before package.json is written. -/
theorem C74_dir_fails (e : FetchEnv V R U I) (hE : e.spec.alphabetic '/' = false) (pre p : Str) (hp : PathText p) (hat : '@' ∉ p)
    (n text : Str) (ht : addText e pre p = .ok (n, text)) (sn : Option Str) (hn : NameText sn n) :
    text = p ∧ ∃ s, requirement e.spec n text = .ok s ∧ resolveSpec e s = .panic := by
  unfold addText at ht
  rw [parse_written hE (.path hp hat)] at ht
  dsimp only at ht
  rw [Fetch.bind_ok] at ht
  obtain ⟨⟨n', res⟩, h1, h2⟩ := ht
  simp only [PackageSpec.target, Out.ok.injEq, Prod.mk.injEq] at h2
  obtain ⟨rfl, rfl⟩ := h2
  exact ⟨rfl, C62_dir_fails e hE sn n' p p hn (.path hp)⟩

theorem addTexts_mem {e : FetchEnv V R U I} {pre : Str} {l : List Str} {ps : List (Str × Str)} (h : addTexts e pre l = .ok ps) :
    ∀ x ∈ ps, ∃ t ∈ l, addText e pre t = .ok x := by
  induction l generalizing ps with
  | nil => cases h; simp
  | cons t l ih =>
    simp only [addTexts, Fetch.bind_ok, Out.ok.injEq] at h
    obtain ⟨x, hx, xs, hxs, rfl⟩ := h
    intro y hy
    rcases List.mem_cons.1 hy with rfl | hy
    · exact ⟨t, List.mem_cons_self, hx⟩
    · obtain ⟨t', h1, h2⟩ := ih hxs y hy
      exact ⟨t', List.mem_cons_of_mem _ h1, h2⟩

/-- **C74**, for the whole command: when `oro add` has changed package.json or succeeded, package.json has, in the section
asked for and nowhere else, an entry for each package asked for, with the requirement found for it (the last one, if two were
asked for under one name); each of these requirements was found for one of the texts given. -/
theorem C74_package_json {N L J C T F : Type} (e : FetchEnv V R U I) (pre : Str) (texts : List Str) (ps : List (Str × Str))
    (hps : addTexts e pre texts = .ok ps) (ed : Cli.Editing J C F) (o : Cli.Opts) (st : Cli.Steps N L J C T) (dev opt : Bool)
    (w : Cli.World N L J) (hw : ∀ f, ed.read w.pkg = some f → Cli.WFJson (ed.value f))
    (h : (Cli.addCmd ed o st (Cli.depKind dev opt) (some ps) w).1.pkg ≠ w.pkg ∨
      (Cli.addCmd ed o st (Cli.depKind dev opt) (some ps) w).2 = true) :
    ∃ f v, ed.read w.pkg = some f ∧ (Cli.addCmd ed o st (Cli.depKind dev opt) (some ps) w).1.pkg = ed.write (ed.withValue f v) ∧
      (∀ n text, Cli.lastFor ps n = some text → (∃ t ∈ texts, addText e pre t = .ok (n, text)) ∧
        ∀ ty ∈ Cli.listed, Cli.entry v ty n = if ty = Cli.wanted dev opt then some (.str text) else none) ∧
      (∀ ty n, (∀ p ∈ ps, p.1 ≠ n) → Cli.entry v ty n = Cli.entry (ed.value f) ty n) := by
  obtain ⟨f, ps', v, h1, h2, h3, h4, _⟩ := Cli.C48_add_order ed o st _ (some ps) w h
  cases h2
  obtain ⟨a1, a2, _, _⟩ := Cli.C48_add (ed.value f) v (hw f h1) dev opt ps h3
  refine ⟨f, v, h1, h4, ?_, a2⟩
  intro n text hl
  refine ⟨?_, a1 n text hl⟩
  unfold Cli.lastFor at hl
  obtain ⟨x, hx, rfl⟩ := Option.map_eq_some_iff.1 hl
  have hxn := List.find?_some hx
  have hmem := addTexts_mem hps x (List.mem_reverse.1 (List.mem_of_find?_eq_some hx))
  simp only [decide_eq_true_eq] at hxn
  obtain ⟨t, ht, hx⟩ := hmem
  exact ⟨t, ht, by rw [hx, ← hxn]⟩

/-! ### examples -/

-- `oro add x` and `oro add y@npm:x@7`, in a registry where `x` has version 3 as its latest: `^3` and `npm:x@^7`
example : addText ExF.env ['^'] ['x'] = .ok (['x'], ['^', '3']) ∧
    addText ExF.env ['^'] ['y', '@', 'n', 'p', 'm', ':', 'x', '@', '7'] = .ok (['y'], ['n', 'p', 'm', ':', 'x', '@', '^', '7']) ∧
    addText ExF.env [] ['x'] = .ok (['x'], ['3']) := by decide +kernel

-- the hypotheses of C74_range and C74_exact for the first of these
example : ExF.env.spec.alphabetic '/' = false ∧ Asked ExF.env.spec ['x'] none none ['x'] none ∧
    (ReqText ExF.env.spec ['^', '3'] (.range [3, 4, 5]) ∧ ExF.env.world.sat [3, 4, 5] 3 = true ∧ ExF.env.world.isStar [3, 4, 5] = false) ∧
    PrintsV ExF.env.spec 3 := by
  refine ⟨by decide, .plain (.bare (.plain (by decide) (by unfold UrlSafe; decide) (by decide))), ⟨?_, by decide +kernel, by decide +kernel⟩, ?_⟩
  · exact .range ⟨⟨'^', rfl, by decide, by decide, by decide⟩, by decide, by decide, by decide, by decide, by decide⟩ (by decide +kernel) (by decide +kernel)
  · exact ⟨by decide +kernel, ⟨⟨'3', rfl, by decide, by decide, by decide⟩, by decide, by decide, by decide, by decide, by decide⟩⟩

-- C74_git_partial: the repository's name is that of its package.json
example : addText ExF.env ['^'] (['g', 'i', 't', '+'] ++ ExF.url 'r' ++ ['#', 'c']) = .ok (['c'], ['g', 'i', 't', '+'] ++ ExF.url 'r' ++ ['#', 'c']) := by
  decide +kernel

-- C74_dir_fails
example : addText ExF.env ['^'] ['.', '/', 'd'] = .ok (['d'], ['.', '/', 'd']) := by decide +kernel

end Add
end Oro
