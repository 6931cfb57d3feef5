import Verif.Spec.Fetch
import Verif.Proofs.Nassun
import Verif.Props.LockPackage
/- C62, C63: packages in directories and git repositories. -/

set_option linter.unusedSectionVars false

namespace Oro
namespace Fetch
open PSpec Nassun
variable {V R U I : Type} [DecidableEq V]

/-! ### what the functions compute -/

theorem bind_ok {α β : Type} {x : Out α} {f : α → Out β} {b : β} : x.bind f = .ok b ↔ ∃ a, x = .ok a ∧ f a = .ok b := by
  cases x <;> simp [Out.bind]

theorem ofOption_ok {α : Type} {x : Option α} {a : α} : Out.ofOption x = .ok a ↔ x = some a := by
  cases x <;> simp [Out.ofOption]

theorem dirMeta_ok {e : FetchEnv V R U I} {fs : Files} {folder : Option Str} {n : Str} {p : Packument V} :
    dirMeta e fs folder = .ok (n, p) ↔ ∃ v, PackageAt e fs folder n v ∧ p = single v := by
  unfold dirMeta
  simp only [bind_ok, ofOption_ok, Out.ok.injEq, Prod.mk.injEq, manifest, Option.bind_eq_some_iff]
  constructor
  · rintro ⟨m, ⟨t, ht, hm⟩, n', hn, rfl, rfl⟩
    refine ⟨_, ⟨t, m, ht, hm, ?_, ?_⟩, rfl⟩
    · cases h : m.name with
      | some x => rw [h] at hn; simp at hn; exact .inl (by rw [hn])
      | none => rw [h] at hn; exact .inr ⟨rfl, by simpa using hn⟩
    · cases h : m.version with
      | some x => exact .inl rfl
      | none => exact .inr ⟨rfl, rfl⟩
  · rintro ⟨v, ⟨t, m, ht, hm, hn, hv⟩, rfl⟩
    refine ⟨m, ⟨t, ht, hm⟩, n, ?_, rfl, ?_⟩
    · rcases hn with h | ⟨h1, h2⟩
      · rw [h]; rfl
      · rw [h1, h2]; rfl
    · have : m.version.getD e.world.zero = v := by
        rcases hv with h | ⟨h1, h2⟩
        · rw [h]; rfl
        · rw [h1, h2]; rfl
      rw [this]; rfl

theorem packageFiles_inPackage (fs : Files) : packageFiles (inPackage fs) = fs := by
  induction fs with
  | nil => rfl
  | cons f fs ih =>
    simp only [inPackage, packageFiles, List.map_cons] at ih ⊢
    rw [List.filterMap_cons]
    simp only [↓reduceIte]
    rw [ih]

/-- reading a repository at an address and at what was asked for -/
theorem fetchClone_ok {e : FetchEnv V R U I} (hord : TotalLe e.world.le) {a : Str} {c : Option Str} {s : Option R}
    (htag : ∀ r, e.clone a = some r → ∀ t ∈ r.tags, ∀ v, e.spec.parseV t = some v → e.spec.showV v = t) (d : Files) :
    fetchClone e [] a c s = .ok d ↔ ∃ r fs, e.clone a = some r ∧ Checkout e r c s fs ∧ d = inPackage fs := by
  have hb : blocked [] = false := rfl
  unfold fetchClone
  rw [hb]
  simp only [Bool.false_eq_true, ↓reduceIte, bind_ok, ofOption_ok, List.nil_append]
  constructor
  · rintro ⟨r, hr, ref, href, hd⟩
    refine ⟨r, ?_⟩
    cases s with
    | none =>
      simp only [checkoutRef, Out.ok.injEq] at href
      subst href
      cases c with
      | none => cases hd; exact ⟨_, hr, .default, rfl⟩
      | some c =>
        simp only [bind_ok, ofOption_ok] at hd
        obtain ⟨fs, h1, h2⟩ := hd
        cases h2; exact ⟨fs, hr, .commit h1, rfl⟩
    | some range =>
      simp only [checkoutRef] at href
      cases hm : maxSatisfying e.world (r.tags.filterMap e.spec.parseV) range with
      | none => rw [hm] at href; cases href
      | some v =>
        rw [hm] at href
        cases href
        simp only [bind_ok, ofOption_ok] at hd
        obtain ⟨fs, h1, h2⟩ := hd
        cases h2
        obtain ⟨hmem, hmax⟩ := (maxBy_spec hord _).2 v hm
        simp only [List.mem_filter, List.mem_filterMap] at hmem
        obtain ⟨⟨t, ht, hv⟩, hsat⟩ := hmem
        refine ⟨fs, hr, .semver ht hv hsat (fun t' ht' v' hv' hs' => hmax v' ?_) ?_, rfl⟩
        · simp only [List.mem_filter, List.mem_filterMap]; exact ⟨⟨t', ht', hv'⟩, hs'⟩
        · rw [htag r hr t ht v hv] at h1; exact h1
  · rintro ⟨r, fs, hr, hc, rfl⟩
    refine ⟨r, hr, ?_⟩
    cases hc with
    | commit h => exact ⟨_, rfl, by simp [h, Out.ofOption, Out.bind]⟩
    | default => exact ⟨_, rfl, rfl⟩
    | @semver c range t v fs ht hv hsat hmax hco =>
      have hm : maxSatisfying e.world (r.tags.filterMap e.spec.parseV) range = some v := by
        unfold maxSatisfying
        cases hx : maxBy e.world.le ((r.tags.filterMap e.spec.parseV).filter (e.world.sat range)) with
        | none =>
          have := (maxBy_spec hord _).1.1 hx
          have hmem : v ∈ (r.tags.filterMap e.spec.parseV).filter (e.world.sat range) := by
            simp only [List.mem_filter, List.mem_filterMap]; exact ⟨⟨t, ht, hv⟩, hsat⟩
          rw [this] at hmem; cases hmem
        | some m =>
          obtain ⟨hmem, hmax'⟩ := (maxBy_spec hord _).2 m hx
          have h1 := hmax' v (by simp only [List.mem_filter, List.mem_filterMap]; exact ⟨⟨t, ht, hv⟩, hsat⟩)
          simp only [List.mem_filter, List.mem_filterMap] at hmem
          obtain ⟨⟨t', ht', hv'⟩, hs'⟩ := hmem
          rw [hord.antisymm _ _ (hmax t' ht' m hv' hs') h1]
      refine ⟨some (e.spec.showV v), by simp [checkoutRef, hm], ?_⟩
      simp only [htag r hr t ht v hv, hco, Out.ofOption, Out.bind]

/-! ## C63: the contents of git dependencies -/

/-- **C63**, for specifiers that give the repository's address (`git+https://…`, `git@…`, `git://…`), if the tags that are
versions are written the way versions are printed: the package's name and version are those in the package.json of the
repository at that address, at the commit, or at the highest tag in the range, or at the default branch; and they are found
whenever these exist. -/
theorem C63_clone_partial (e : FetchEnv V R U I) (hord : TotalLe e.world.le) (i : GitInfo R U) (a : Str) (c : Option Str)
    (s : Option R) (ha : HasAddress e i a c s)
    (htag : ∀ r, e.clone a = some r → ∀ t ∈ r.tags, ∀ v, e.spec.parseV t = some v → e.spec.showV v = t)
    (n : Str) (p : Packument V) :
    gitMeta e i = .ok (n, p) ↔
      ∃ r fs v, e.clone a = some r ∧ Checkout e r c s fs ∧ PackageAt e fs (some kPackage) n v ∧ p = single v := by
  have hf : fetchToTempDir e i = fetchClone e [] a c s := by cases ha <;> rfl
  unfold gitMeta
  rw [hf, bind_ok]
  constructor
  · rintro ⟨d, hd, hm⟩
    obtain ⟨r, fs, h1, h2, rfl⟩ := (fetchClone_ok hord htag d).1 hd
    rw [packageFiles_inPackage, dirMeta_ok] at hm
    obtain ⟨v, h3, h4⟩ := hm
    exact ⟨r, fs, v, h1, h2, h3, h4⟩
  · rintro ⟨r, fs, v, h1, h2, h3, h4⟩
    refine ⟨inPackage fs, (fetchClone_ok hord htag _).2 ⟨r, fs, h1, h2, rfl⟩, ?_⟩
    rw [packageFiles_inPackage, dirMeta_ok]
    exact ⟨v, h3, h4⟩

/-- **C63 fails** for ranges when tags are written `v1.2.3`: the version is printed without the `v`, and git does not know
that name. -/
theorem C63_v_tags_fails (e : FetchEnv V R U I) (hord : TotalLe e.world.le) (i : GitInfo R U) (a : Str) (c : Option Str)
    (range : R) (ha : HasAddress e i a c (some range)) (r : Repo) (hr : e.clone a = some r)
    (h : ∀ t ∈ r.tags, ∀ v, e.spec.parseV t = some v → r.checkout (e.spec.showV v) = none) : gitMeta e i = .err := by
  have hf : fetchToTempDir e i = fetchClone e [] a c (some range) := by cases ha <;> rfl
  have hc : fetchClone e [] a c (some range) = .err := by
    unfold fetchClone
    have hb : blocked [] = false := rfl
    rw [hb, hr]
    simp only [Bool.false_eq_true, ↓reduceIte, Out.ofOption, Out.bind, checkoutRef]
    cases hm : maxSatisfying e.world (r.tags.filterMap e.spec.parseV) range with
    | none => rfl
    | some v =>
      have hmem := ((maxBy_spec hord _).2 v hm).1
      simp only [List.mem_filter, List.mem_filterMap] at hmem
      obtain ⟨⟨t, ht, hv⟩, _⟩ := hmem
      simp only [h t ht v hv]
  unfold gitMeta
  rw [hf, hc]; rfl

theorem mem_packageFiles {d : Files} {p : List Str} {t : Str} : (p, t) ∈ packageFiles d ↔ (kPackage :: p, t) ∈ d := by
  simp only [packageFiles, List.mem_filterMap]
  constructor
  · rintro ⟨⟨q, t'⟩, h, hq⟩
    cases q with
    | nil => cases hq
    | cons x q =>
      simp only at hq
      split at hq
      · rename_i hx; cases hq; rw [← hx]; exact h
      · cases hq
  · intro h
    exact ⟨_, h, by simp⟩

theorem readFile_none {fs : Files} {p : List Str} (h : ∀ t, (p, t) ∉ fs) : readFile fs p = none := by
  unfold readFile
  rw [Option.map_eq_none_iff, List.find?_eq_none]
  rintro ⟨q, t⟩ hm hq
  simp only [beq_iff_eq] at hq
  subst hq
  exact h t (List.mem_reverse.1 hm)

/-- **C63 fails** for `owner/repo#commit` and `host:owner/repo#commit` whenever the host delivers the archive: its top folder
is removed, but the package is then looked for in a folder called `package`.  So it is not found (unless the repository has
a folder with that name: then that is taken for the package). -/
theorem C63_archive_fails (e : FetchEnv V R U I) (o r c : Str) (h : GitHost) (s : Option R) (u : U) (x : U) (entries : Files)
    (hu : e.spec.parseU (tarballAddr h o r c) = some u) (hx : e.spec.parseU (httpsAddr h o r) = some x)
    (ha : e.archive (e.spec.showU u) = (entries, true))
    (hp : ∀ top t, (top :: [kPackage, kPkgJson], t) ∉ entries) :
    gitMeta e (.hosted o r h (some c) s none) = .err := by
  have hf : fetchToTempDir e (.hosted o r h (some c) s none) = .ok (entries.map fun f => (f.1.drop 1, f.2)) := by
    simp only [fetchToTempDir, asUrl, hu, hx, Out.bind, fetchTarball, ha, ↓reduceIte]
  have hp' : ∀ t, ([kPackage, kPkgJson], t) ∉ entries.map fun f => (f.1.drop 1, f.2) := by
    intro t hm
    obtain ⟨⟨q, t'⟩, hq, he⟩ := List.mem_map.1 hm
    cases q with
    | nil => simp at he
    | cons top q => simp only [List.drop_succ_cons, List.drop_zero, Prod.mk.injEq] at he; rw [he.1] at hq; exact hp _ _ hq
  have hd : dirMeta e (packageFiles (entries.map fun f => (f.1.drop 1, f.2))) (some kPackage) = .err := by
    have : readFile (packageFiles (entries.map fun f => (f.1.drop 1, f.2))) [kPkgJson] = none :=
      readFile_none fun t ht => hp' t (mem_packageFiles.1 ht)
    simp only [dirMeta, manifest, this, Option.bind_none, Out.ofOption, Out.bind]
  unfold gitMeta
  rw [hf]
  exact hd

/-- the package of a repository at the address `a`, at what was asked for -/
def FoundAt (e : FetchEnv V R U I) (a : Str) (c : Option Str) (s : Option R) (n : Str) (p : Packument V) : Prop :=
  ∃ r fs v, e.clone a = some r ∧ Checkout e r c s fs ∧ PackageAt e fs (some kPackage) n v ∧ p = single v

theorem packageFiles_append (a b : Files) : packageFiles (a ++ b) = packageFiles a ++ packageFiles b := by
  unfold packageFiles; exact List.filterMap_append

/-- files of which none is below `package` -/
theorem packageFiles_none {dir : Files} (h : ∀ p t, (p, t) ∈ dir → p.head? ≠ some kPackage) : packageFiles dir = [] := by
  refine List.eq_nil_iff_forall_not_mem.2 ?_
  rintro ⟨p, t⟩ hm
  exact h _ _ (mem_packageFiles.1 hm) rfl

theorem blocked_false {dir : Files} (h : ∀ p t, (p, t) ∈ dir → p.head? ≠ some kPackage) : blocked dir = false := by
  unfold blocked
  rw [List.any_eq_false]
  rintro ⟨p, t⟩ hm
  simpa using h p t hm

theorem fetchClone_dir (e : FetchEnv V R U I) {dir : Files} (h : ∀ p t, (p, t) ∈ dir → p.head? ≠ some kPackage) (a : Str)
    (c : Option Str) (s : Option R) : fetchClone e dir a c s = (fetchClone e [] a c s).bind fun d => .ok (dir ++ d) := by
  unfold fetchClone
  rw [blocked_false h, show blocked [] = false from rfl]
  simp only [Bool.false_eq_true, ↓reduceIte, List.nil_append]
  cases e.clone a with
  | none => rfl
  | some r =>
    simp only [Out.ofOption, Out.bind]
    cases checkoutRef e r c s with
    | err => rfl
    | panic => rfl
    | ok ref =>
      cases ref with
      | none => rfl
      | some x => simp only; cases r.checkout x <;> rfl

/-- C63, for hosted repositories (`owner/repo#commit`) whose archive can not be had as a whole: the repository is cloned from
its https address, and if there is none, from its ssh address; files of the broken archive do no harm unless they are in a
folder called `package`. -/
theorem C63_fallback_partial (e : FetchEnv V R U I) (hord : TotalLe e.world.le) (o r c : Str) (h : GitHost) (s : Option R) (u x : U)
    (hu : e.spec.parseU (tarballAddr h o r c) = some u) (hx : e.spec.parseU (httpsAddr h o r) = some x)
    (entries : Files) (ha : e.archive (e.spec.showU u) = (entries, false))
    (hp : ∀ top p t, (top :: kPackage :: p, t) ∉ entries)
    (htag : ∀ a r, e.clone a = some r → ∀ t ∈ r.tags, ∀ v, e.spec.parseV t = some v → e.spec.showV v = t)
    (n : Str) (p : Packument V) :
    gitMeta e (.hosted o r h (some c) s none) = .ok (n, p) ↔
      FoundAt e (e.spec.showU x) (some c) s n p ∨
      e.clone (e.spec.showU x) = none ∧ FoundAt e (sshAddr h o r) (some c) s n p := by
  generalize hdir : (entries.map fun f => (f.1.drop 1, f.2)) = dir
  have hfree : ∀ p t, (p, t) ∈ dir → p.head? ≠ some kPackage := by
    intro p t hm hh
    rw [← hdir] at hm
    obtain ⟨⟨q, t'⟩, hq, he⟩ := List.mem_map.1 hm
    cases q with
    | nil => simp only [List.drop_nil, Prod.mk.injEq] at he; rw [← he.1] at hh; cases hh
    | cons top q =>
      simp only [List.drop_succ_cons, List.drop_zero, Prod.mk.injEq] at he
      rw [← he.1] at hh
      cases q with
      | nil => cases hh
      | cons a q => simp only [List.head?_cons, Option.some.injEq] at hh; subst hh; exact hp _ _ _ hq
  have key : ∀ a, (fetchClone e dir a (some c) s).bind (fun d => dirMeta e (packageFiles d) (some kPackage)) = .ok (n, p) ↔
      FoundAt e a (some c) s n p := by
    intro a
    rw [fetchClone_dir e hfree, bind_ok]
    constructor
    · rintro ⟨d, hd, hm⟩
      obtain ⟨d', hd', hd⟩ := bind_ok.1 hd
      cases hd
      obtain ⟨r, fs, h1, h2, rfl⟩ := (fetchClone_ok hord (htag a) d').1 hd'
      rw [packageFiles_append, packageFiles_none hfree, List.nil_append, packageFiles_inPackage, dirMeta_ok] at hm
      obtain ⟨v, h3, h4⟩ := hm
      exact ⟨r, fs, v, h1, h2, h3, h4⟩
    · rintro ⟨r, fs, v, h1, h2, h3, h4⟩
      refine ⟨dir ++ inPackage fs, bind_ok.2 ⟨_, (fetchClone_ok hord (htag a) _).2 ⟨r, fs, h1, h2, rfl⟩, rfl⟩, ?_⟩
      rw [packageFiles_append, packageFiles_none hfree, List.nil_append, packageFiles_inPackage, dirMeta_ok]
      exact ⟨v, h3, h4⟩
  have hf : fetchToTempDir e (.hosted o r h (some c) s none) = match fetchClone e dir (e.spec.showU x) (some c) s with
      | .ok d => .ok d
      | .err => if (e.clone (e.spec.showU x)).isSome then .err else fetchClone e dir (sshAddr h o r) (some c) s
      | .panic => .panic := by
    simp only [fetchToTempDir, asUrl, hu, hx, Out.bind, fetchTarball, ha, hdir, cloned, Bool.false_eq_true, ↓reduceIte,
      blocked_false hfree, Bool.not_false, Bool.true_and]
    cases fetchClone e dir (e.spec.showU x) (some c) s <;> rfl
  unfold gitMeta
  rw [hf]
  cases hc : e.clone (e.spec.showU x) with
  | none =>
    have : fetchClone e dir (e.spec.showU x) (some c) s = .err := by
      unfold fetchClone
      rw [hc, blocked_false hfree]
      rfl
    rw [this]
    simp only [Option.isSome_none, Bool.false_eq_true, ↓reduceIte, true_and]
    rw [key]
    constructor
    · exact .inr
    · rintro (⟨r, _, _, h1, _⟩ | h1)
      · rw [hc] at h1; cases h1
      · exact h1
  | some rp =>
    rw [← key]
    cases fetchClone e dir (e.spec.showU x) (some c) s <;> simp [Out.bind]

/-- **C63 fails** for a hosted repository when the broken archive left a file in a folder called `package`: neither address is
tried with success, whatever is there. -/
theorem C63_leftover_fails (e : FetchEnv V R U I) (o r c : Str) (h : GitHost) (s : Option R) (u x : U)
    (hu : e.spec.parseU (tarballAddr h o r c) = some u) (hx : e.spec.parseU (httpsAddr h o r) = some x)
    (entries : Files) (ha : e.archive (e.spec.showU u) = (entries, false)) (top t : Str) (p : List Str)
    (hp : (top :: kPackage :: p, t) ∈ entries) : gitMeta e (.hosted o r h (some c) s none) = .err := by
  have hb : blocked (entries.map fun f => (f.1.drop 1, f.2)) = true := by
    unfold blocked
    rw [List.any_eq_true]
    exact ⟨(kPackage :: p, t), List.mem_map.2 ⟨_, hp, rfl⟩, by simp⟩
  have hc : ∀ a, fetchClone e (entries.map fun f => (f.1.drop 1, f.2)) a (some c) s = .err := by
    intro a; unfold fetchClone; rw [hb]; rfl
  unfold gitMeta
  simp only [fetchToTempDir, asUrl, hu, hx, Out.bind, fetchTarball, ha, Bool.false_eq_true, ↓reduceIte, hc, cloned, hb,
    Bool.not_true, Bool.false_and]

/-- C63: the program crashes when the address of a hosted repository cannot be parsed. -/
theorem C63_address_panics (e : FetchEnv V R U I) (o r c : Str) (h : GitHost) (s : Option R)
    (hx : e.spec.parseU (tarballAddr h o r c) = none ∨ e.spec.parseU (httpsAddr h o r) = none) :
    gitMeta e (.hosted o r h (some c) s none) = .panic := by
  unfold gitMeta
  rcases hx with hx | hx
  · simp only [fetchToTempDir, asUrl, hx, Out.bind]
  · cases ht : e.spec.parseU (tarballAddr h o r c) <;> simp only [fetchToTempDir, asUrl, hx, ht, Out.bind]

/-- **C63 fails** for archives of repositories at GitHub: they are at `…/tar.gz/commit`, but another address is asked for. -/
theorem C63_archive_address_fails (o r c : Str) :
    tarballAddr .github o r c ≠ ['h','t','t','p','s',':','/','/','c','o','d','e','l','o','a','d','.','g','i','t','h','u','b','.','c','o','m','/'] ++ o ++ ['/'] ++ r ++ ['/','t','a','r','.','g','z','/'] ++ c := by
  intro h
  simp [tarballAddr] at h

/-- the part of an address that names the host -/
def onHost (scheme : Str) (h : GitHost) (a : Str) : Prop := (scheme ++ hostDomain h) <+: a

/-- C63: the addresses tried for a hosted repository are on that host, for all hosts but one. -/
theorem C63_addresses (h : GitHost) (o r : Str) (hb : h ≠ .bitbucket) :
    onHost ['h','t','t','p','s',':','/','/'] h (httpsAddr h o r) ∧ onHost ['g','i','t','@'] h (sshAddr h o r) := by
  cases h
  · exact ⟨⟨'/' :: (o ++ '/' :: r ++ ['.','g','i','t']), by simp [httpsAddr, hostDomain]⟩,
      ⟨':' :: (o ++ '/' :: r ++ ['.','g','i','t']), by simp [sshAddr, hostDomain]⟩⟩
  · exact ⟨⟨'/' :: (r ++ ['.','g','i','t']), by simp [httpsAddr, hostDomain]⟩, ⟨':' :: '/' :: r, by simp [sshAddr, hostDomain]⟩⟩
  · exact ⟨⟨'/' :: (o ++ '/' :: r ++ ['.','g','i','t']), by simp [httpsAddr, hostDomain]⟩,
      ⟨':' :: (o ++ '/' :: r ++ ['.','g','i','t']), by simp [sshAddr, hostDomain]⟩⟩
  · exact absurd rfl hb

/-- **C63 fails** for Bitbucket: both addresses that are cloned are on bitbucket.com, not bitbucket.org. -/
theorem C63_bitbucket_fails (o r : Str) :
    ¬ onHost ['h','t','t','p','s',':','/','/'] .bitbucket (httpsAddr .bitbucket o r) ∧
    ¬ onHost ['g','i','t','@'] .bitbucket (sshAddr .bitbucket o r) := by
  constructor
  · rintro ⟨t, ht⟩; simp [httpsAddr, hostDomain] at ht
  · rintro ⟨t, ht⟩; simp [sshAddr, hostDomain] at ht

/-! ## C62: resolving and installing directories and repositories -/

/-- **C62 fails** for every requirement of a package.json on a directory (`"name": "./path"`, `"name": "file:path"`):
resolving it crashes. -/
theorem C62_dir_fails (e : FetchEnv V R U I) (hE : e.spec.alphabetic '/' = false) (sc : Option Str) (m t p : Str)
    (hm : NameText sc m) (ht : AliasedText e.spec t (.dir p)) :
    ∃ s, requirement e.spec m t = .ok s ∧ resolveSpec e s = .panic :=
  ⟨_, parse_written hE (.alias hm ht), rfl⟩

/-- **C62 fails** for every requirement `"name": "owner/repo"` and `"name": "host:owner/repo"` without a commit (with or
without a range): resolving it crashes. -/
theorem C62_git_fails (e : FetchEnv V R U I) (hE : e.spec.alphabetic '/' = false) (sc : Option Str) (m t o r : Str)
    (h : GitHost) (sv : Option R) (hm : NameText sc m) (ht : GitForm e.spec t (.hosted o r h none sv none)) :
    ∃ s, requirement e.spec m t = .ok s ∧ resolveSpec e s = .panic :=
  ⟨_, parse_written hE (.alias hm (.git ht)), rfl⟩

/-- C62: the same specifier on its own crashes as well. -/
theorem C62_git_alone_fails (e : FetchEnv V R U I) (hE : e.spec.alphabetic '/' = false) (t o r : Str)
    (h : GitHost) (sv : Option R) (ht : GitForm e.spec t (.hosted o r h none sv none)) :
    ∃ s, parse e.spec t = .ok s ∧ resolveSpec e s = .panic :=
  ⟨_, parse_written hE (.git ht), rfl⟩

/-- **C62 fails**: no package from a directory or a repository can be installed – asking for its tarball crashes. -/
theorem C62_install_fails (s : PackageSpec V R U) (res : Resolution V R U I)
    (h : (∃ p, s.target = .dir p) ∨ ∃ i, s.target = .git i) : tarball s res = .panic := by
  have hpick : ∀ s : PackageSpec V R U, ((∃ p, s.target = .dir p) → pick s = .dir) ∧ ((∃ i, s.target = .git i) → pick s = .git) := by
    intro s
    induction s with
    | «alias» n s ih =>
      have ht : (PackageSpec.alias n s).target = s.target := by
        unfold PackageSpec.target
        cases s <;> rfl
      rw [ht]; exact ih
    | npm sc n q => exact ⟨(fun ⟨_, h⟩ => nomatch h), (fun ⟨_, h⟩ => nomatch h)⟩
    | dir p => exact ⟨fun _ => rfl, (fun ⟨_, h⟩ => nomatch h)⟩
    | git i => exact ⟨(fun ⟨_, h⟩ => nomatch h), fun _ => rfl⟩
  unfold tarball
  rcases h with h | h
  · rw [(hpick s).1 h]
  · rw [(hpick s).2 h]

/-- **C62**, the part that works: a path on its own is resolved to the directory, relative to the base directory, with the
name and version of the package there. -/
theorem C62_direct_partial (e : FetchEnv V R U I) (p n : Str) (res : Resolution V R U I) :
    resolveSpec e (.dir p) = .ok (n, res) ↔
      ∃ c v, e.world.canonicalize (e.world.join e.baseDir p) = some c ∧ res = .dir n c ∧
        PackageAt e (e.dirFiles (e.world.join e.baseDir p)) (e.fileName (e.world.join e.baseDir p)) n v := by
  simp only [resolveSpec, pick, nameOf, packument, bind_ok, getResolution, PackageSpec.target]
  constructor
  · rintro ⟨n', ⟨⟨n1, p1⟩, h1, h2⟩, p', ⟨m, h3, h4⟩, h5⟩
    cases h2
    obtain ⟨v, hv, rfl⟩ := dirMeta_ok.1 h1
    cases hc : e.world.canonicalize (e.world.join e.baseDir p) with
    | none => rw [hc] at h5; cases h5
    | some c => rw [hc] at h5; cases h5; exact ⟨c, v, rfl, rfl, hv⟩
  · rintro ⟨c, v, hc, rfl, hv⟩
    have := dirMeta_ok.2 ⟨v, hv, rfl⟩
    exact ⟨n, ⟨_, this, rfl⟩, _, ⟨_, this, rfl⟩, by rw [hc]⟩

/-- **C62**, registry packages: resolving never crashes, asks the registry for the name that was written (behind an alias:
the name the alias stands for), and the package goes by the alias. -/
theorem C62_registry (e : FetchEnv V R U I) (s : PackageSpec V R U) (sc : Option Str) (m : Str)
    (q : Option (VersionSpec V R)) (hs : s = .npm sc m q ∨ ∃ a, s = .alias a (.npm sc m q)) :
    resolveSpec e s ≠ .panic ∧ ∀ n res, resolveSpec e s = .ok (n, res) ↔
      (n = match s with | .alias a _ => a | _ => m) ∧ ∃ p, e.registry sc m = some p ∧
        getResolution e.world e.baseDir e.defaultTag n s p = .ok res := by
  rcases hs with rfl | ⟨a, rfl⟩
  all_goals
    simp only [resolveSpec, pick, nameOf, packument, Out.bind, PackageSpec.target, PackageSpec.isAlias, Bool.false_eq_true, ↓reduceIte]
    cases hr : e.registry sc m with
    | none => simp [Out.ofOption]
    | some p =>
      simp only [Out.ofOption]
      split
      · rename_i r hg
        refine ⟨by simp, fun n res => ?_⟩
        constructor
        · intro h; cases h; exact ⟨rfl, p, rfl, hg⟩
        · rintro ⟨rfl, p', hp, hg'⟩
          cases hp
          rw [hg] at hg'
          cases hg'; rfl
      · rename_i x hg
        refine ⟨by simp, fun n res => ?_⟩
        constructor
        · intro h; cases h
        · rintro ⟨rfl, p', hp, hg'⟩
          cases hp
          rw [hg] at hg'
          cases hg'

/-- C62, for git specifiers that give the repository's address: on their own they resolve to that repository, with the name in
its package.json; as requirements of a package.json (or with an alias) with the name given there. -/
theorem C62_git_partial (e : FetchEnv V R U I) (hord : TotalLe e.world.le) (i : GitInfo R U) (a : Str) (c : Option Str)
    (s : Option R) (ha : HasAddress e i a c s)
    (htag : ∀ r, e.clone a = some r → ∀ t ∈ r.tags, ∀ v, e.spec.parseV t = some v → e.spec.showV v = t)
    (n : Str) (res : Resolution V R U I) :
    (resolveSpec e (.git i) = .ok (n, res) ↔ res = .git n i ∧ ∃ p, FoundAt e a c s n p) ∧
    ∀ m, resolveSpec e (.alias m (.git i)) = .ok (n, res) ↔ n = m ∧ res = .git n i ∧ ∃ m' p, FoundAt e a c s m' p := by
  have key := C63_clone_partial e hord i a c s ha htag
  simp only [resolveSpec, pick, nameOf, packument, bind_ok, getResolution, PackageSpec.target, PackageSpec.isAlias, Bool.false_eq_true, ↓reduceIte]
  constructor
  · constructor
    · rintro ⟨n', ⟨⟨n1, p1⟩, h1, h2⟩, _, _, h5⟩
      cases h2; cases h5
      exact ⟨rfl, p1, (key _ _).1 h1⟩
    · rintro ⟨rfl, p, hp⟩
      exact ⟨n, ⟨_, (key _ _).2 hp, rfl⟩, _, ⟨_, (key _ _).2 hp, rfl⟩, rfl⟩
  · intro m
    constructor
    · rintro ⟨n', h1, p', ⟨⟨n1, p1⟩, h3, h4⟩, h5⟩
      cases h1; cases h5
      exact ⟨rfl, rfl, n1, p1, (key _ _).1 h3⟩
    · rintro ⟨rfl, rfl, m', p, hp⟩
      exact ⟨n, rfl, _, ⟨_, (key _ _).2 hp, rfl⟩, rfl⟩

/-- C62: the archive of a package from the registry, asked for by its name or an alias, is at the address it was resolved to. -/
theorem C62_tarball (s : PackageSpec V R U) (sc : Option Str) (m : Str) (q : Option (VersionSpec V R))
    (hs : s = .npm sc m q ∨ ∃ a, s = .alias a (.npm sc m q)) (n address : Str) (v : V) (i : Option I) :
    tarball s (.npm n v address i) = .ok address := by
  rcases hs with rfl | ⟨a, rfl⟩ <;> rfl

/-! ### examples -/

namespace ExF

def digit (c : Char) : Option Nat := if c.isDigit then some (c.toNat - 48) else none

/-- versions are digits, possibly after a `v`; ranges are `^` and a digit -/
def spec : SpecEnv Nat (List Nat) Str where
  parseV s := match s with
    | ['v', c] => digit c
    | [c] => digit c
    | _ => none
  showV n := [Char.ofNat (48 + n)]
  parseR s := match s with
    | ['^', c] => (digit c).map fun n => [n, n + 1, n + 2]
    | _ => none
  showR _ := []
  parseU := ExS.env.parseU
  showU := id
  scheme := ExS.env.scheme
  host := ExS.env.host
  path := ExS.env.path
  alphabetic := Char.isAlpha

/-- a repository whose package.json says `w` -/
def files (w : Str) : Files := [([['a']], ['b']), ([kPkgJson], w)]

def repo (tags : List Str) : Repo where
  head := files ['h']
  tags := tags
  checkout c := if c ∈ tags || c = ['c'] then some (files c) else none

/-- `https://x/r` has plain tags, `https://x/v` has tags with a `v` -/
def env : FetchEnv Nat (List Nat) Str Str where
  spec := spec
  world := ExS.world
  clone a := if a = ['h','t','t','p','s',':','/','/','x','/','r'] then some (repo [['1'], ['3'], ['2'], ['9'], ['z']])
    else if a = ['h','t','t','p','s',':','/','/','x','/','v'] then some (repo [['v','1'], ['v','2']]) else none
  archive _ := ((files ['c']).map fun f => (['t'] :: f.1, f.2), true)
  json t := some { name := if t = ['h'] then none else some t, version := some 5 }
  dirFiles _ := files ['d']
  fileName _ := some ['f']
  registry _ n := if n = ['x'] then some ExS.pack else none
  baseDir := ['b']
  defaultTag := ExS.latest

def url (x : Char) : Str := ['h','t','t','p','s',':','/','/','x','/', x]

end ExF

-- C63_clone_partial: the tags of the first repository print as they are written, and its contents are found
example : ∀ r, ExF.env.clone (ExF.url 'r') = some r → ∀ t ∈ r.tags, ∀ v, ExF.env.spec.parseV t = some v →
    ExF.env.spec.showV v = t := by
  intro r hr
  have : r = ExF.repo [['1'], ['3'], ['2'], ['9'], ['z']] := by
    have h : ExF.env.clone (ExF.url 'r') = some (ExF.repo [['1'], ['3'], ['2'], ['9'], ['z']]) := by rfl
    rw [h] at hr; cases hr; rfl
  subst this
  intro t ht v hv
  simp only [ExF.repo, List.mem_cons, List.not_mem_nil, or_false] at ht
  rcases ht with rfl | rfl | rfl | rfl | rfl <;>
    first
    | (have h1 : v = 1 := by cases hv; rfl); subst h1; decide +kernel
    | (have h1 : v = 3 := by cases hv; rfl); subst h1; decide +kernel
    | (have h1 : v = 2 := by cases hv; rfl); subst h1; decide +kernel
    | (have h1 : v = 9 := by cases hv; rfl); subst h1; decide +kernel
    | cases hv
example : (match gitMeta ExF.env (.url (ExF.url 'r') none (some [1, 2, 3])) with
    | .ok (n, _) => n == ['3'] | _ => false) = true := by decide +kernel
example : (match gitMeta ExF.env (.url (ExF.url 'r') (some ['c']) none) with
    | .ok (n, _) => n == ['c'] | _ => false) = true := by decide +kernel
example : (match gitMeta ExF.env (.url (ExF.url 'r') none none) with
    | .ok (n, _) => n == kPackage | _ => false) = true := by decide +kernel
-- C63_v_tags_fails: the second repository has v-tags, although what was asked for exists
example : (∀ t ∈ (ExF.repo [['v','1'], ['v','2']]).tags, ∀ v, ExF.env.spec.parseV t = some v →
    (ExF.repo [['v','1'], ['v','2']]).checkout (ExF.env.spec.showV v) = none) ∧
    Checkout ExF.env (ExF.repo [['v','1'], ['v','2']]) none (some [1, 2, 3]) (ExF.files ['v','2']) := by
  constructor
  · intro t ht v hv
    simp only [ExF.repo, List.mem_cons, List.not_mem_nil, or_false] at ht
    rcases ht with rfl | rfl
    · have h1 : v = 1 := by cases hv; rfl
      subst h1; decide +kernel
    · have h1 : v = 2 := by cases hv; rfl
      subst h1; decide +kernel
  · refine .semver (t := ['v','2']) (v := 2) (by decide) (by decide +kernel) (by decide +kernel) ?_ (by decide +kernel)
    intro t ht v hv _
    simp only [ExF.repo, List.mem_cons, List.not_mem_nil, or_false] at ht
    rcases ht with rfl | rfl
    · have h1 : v = 1 := by cases hv; rfl
      subst h1; decide +kernel
    · have h1 : v = 2 := by cases hv; rfl
      subst h1; decide +kernel
-- C63_archive_fails: the archive of a repository with a package.json
example : (∃ u, ExF.env.spec.parseU (tarballAddr .github ['o'] ['r'] ['c']) = some u) ∧
    (∃ u, ExF.env.spec.parseU (httpsAddr .github ['o'] ['r']) = some u) ∧
    ([['t'], kPkgJson], ['c']) ∈ (ExF.env.archive []).1 ∧ ∀ top t, (top :: [kPackage, kPkgJson], t) ∉ (ExF.env.archive []).1 := by
  refine ⟨⟨_, rfl⟩, ⟨_, rfl⟩, by decide +kernel, ?_⟩
  intro top t hm
  simp [ExF.env, ExF.files] at hm
-- C63_fallback_partial: no archive, no https, but ssh
example : (match gitMeta { ExF.env with archive := fun _ => ([], false), clone := fun a => if a = sshAddr .github ['o'] ['r'] then some (ExF.repo [['1']]) else none }
    (.hosted ['o'] ['r'] .github (some ['c']) none none) with
    | .ok (n, _) => n == ['c'] | _ => false) = true := by decide +kernel
-- the same with a file of a broken archive, and with one in a folder called `package`
example : (let env := fun top : Str => { ExF.env with archive := fun _ => ([([['t'], top, ['f']], ['x'])], false), clone := fun a => if a = sshAddr .github ['o'] ['r'] then some (ExF.repo [['1']]) else none }
    ((match gitMeta (env ['q']) (.hosted ['o'] ['r'] .github (some ['c']) none none) with | .ok (n, _) => n == ['c'] | _ => false) &&
     (match gitMeta (env kPackage) (.hosted ['o'] ['r'] .github (some ['c']) none none) with | .err => true | _ => false))) = true := by decide +kernel
-- C62_git_partial: an alias of a repository
example : (match resolveSpec ExF.env (.alias ['y'] (.git (.url (ExF.url 'r') none none))) with
    | .ok (n, .git m _) => n == ['y'] && m == ['y'] | _ => false) = true := by decide +kernel
-- C62: requirements on directories and repositories; a path on its own; an alias of a registry package
example : ExF.spec.alphabetic '/' = false ∧ NameText none ['x'] ∧ AliasedText ExF.spec ['f','i','l','e',':','.','/','d'] (.dir ['.','/','d']) ∧
    GitForm ExF.spec ['o','/','r'] (.hosted ['o'] ['r'] .github none none none) :=
  ⟨by decide, .plain (by decide) (by unfold UrlSafe; decide) (by decide), .file (p := ['.','/','d']) (.inl rfl),
   .short (o := ['o']) (r := ['r']) (c := []) (by decide) (by unfold UrlSafe; decide) (by decide) (by decide) (by decide) (by decide) .nothing⟩
example : (match resolveSpec ExF.env (.dir ['.']) with | .ok (n, .dir _ p) => n == ['d'] && p == ['/','b','/','.'] | _ => false) = true := by
  decide +kernel
example : (match resolveSpec ExF.env (.alias ['y'] (.npm none ['x'] (some (.version 2)))) with
    | .ok (n, .npm _ v _ _) => n == ['y'] && v == 2 | _ => false) = true := by decide +kernel

end Fetch
end Oro
