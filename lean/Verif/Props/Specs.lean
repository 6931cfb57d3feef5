import Verif.Proofs.PackageSpec4
import Verif.Proofs.Nassun
/-
Properties C19–C22 and C53: version selection and package specifiers.
-/

set_option linter.unusedSectionVars false

namespace Oro
open PSpec Nassun
variable {V R U I : Type}

/-! ## A concrete environment for the examples: versions are digits and dots, ranges start with an operator -/
namespace ExS

def digitish (s : Str) : Bool := s.all fun c => c.isDigit || c == '.'

def env : SpecEnv Str Str Str where
  parseV s := if digitish s && (s.head?.map Char.isDigit == some true) then some s else none
  showV := id
  parseR s := match s with
    | '^' :: t => if digitish t then some s else none
    | '*' :: [] => some s
    | _ => none
  showR := id
  parseU s := if (s.takeWhile (· != ':')).all Char.isAlpha && (s.dropWhile (· != ':')).take 3 == [':', '/', '/']
      && !(((s.dropWhile (· != ':')).drop 3).contains ':') then some s else none
  showU := id
  scheme s := s.takeWhile (· != ':')
  host s := some ((((s.dropWhile (· != ':')).drop 3).takeWhile (· != '/')))
  path s := ((s.dropWhile (· != ':')).drop 3).dropWhile (· != '/')
  alphabetic := Char.isAlpha

/-- versions and ranges as numbers: a range is a list of versions -/
def world : World Nat (List Nat) Str where
  le a b := decide (a ≤ b)
  sat r v := r.contains v
  isStar r := r == [100]
  zero := 0
  canonicalize s := some ('/' :: s)
  join a b := a ++ '/' :: b
  parseI s := some s

def vm (v : Nat) : VersionMeta Nat := { version := some v, tarball := some ['u'], integrity := some ['i'], shasum := none }
def latest : Str := ['l']
def pack : Packument Nat := { versions := [(1, vm 1), (3, vm 3), (2, vm 2), (7, vm 7)], tags := [(latest, 3), (['n'], 7)] }

theorem world_total : TotalLe world.le :=
  ⟨fun a b => by simp [world]; omega, fun a b c => by simp [world]; omega, fun a b => by simp [world]; omega⟩

end ExS

/-! ## C19: version selection -/

theorem selection_aux [DecidableEq V] (w : World V R I) (hle : TotalLe w.le) (p : Packument V)
    (baseDir tag name : Str) (s : PackageSpec V R U) (sc : Option Str) (n : Str) (req : Option (VersionSpec V R))
    (hs : Unaliased s (.npm sc n req)) :
    (∀ v t i, getResolution w baseDir tag name s p = .ok (.npm name v t i) ↔
      ∃ x e, Chooses w p tag req x ∧ p.versions.get? x = some e ∧ v = e.version.getD w.zero ∧ e.tarball = some t ∧
        integrityOf w e = .ok i) ∧
    (getResolution w baseDir tag name s p = .error .noVersion ↔ ¬ ∃ x, Chooses w p tag req x) ∧
    (∀ res, getResolution w baseDir tag name s p = .ok res → ∃ v t i, res = .npm name v t i) := by
  have hst : s.target = .npm sc n req := (unaliased_det hs).symm
  have hg : getResolution w baseDir tag name s p =
      if p.versions.isEmpty then .error .noVersion else
      match (chooseTarget w p tag req).bind p.versions.get? with
      | none => .error .noVersion
      | some e => match e.tarball with
        | none => .error .noTarball
        | some t => match integrityOf w e with
          | .error x => .error x
          | .ok i => .ok (.npm name (e.version.getD w.zero) t i) := by
    unfold getResolution; rw [hst]; rfl
  have hint : ∀ e, integrityOf w e ≠ .error .noVersion := by
    intro e
    unfold integrityOf
    split
    · split <;> simp
    · split
      · split <;> simp
      · simp
  by_cases hc : ∃ x, Chooses w p tag req x
  · obtain ⟨x, hx⟩ := hc
    obtain ⟨h1, e, he⟩ := (choose_iff hle p tag req x).mpr hx
    have hne : p.versions.isEmpty = false := by
      cases hv : p.versions with
      | nil => rw [hv] at he; cases he
      | cons => rfl
    have hg' : getResolution w baseDir tag name s p = match e.tarball with
        | none => .error .noTarball
        | some t => match integrityOf w e with
          | .error x => .error x
          | .ok i => .ok (.npm name (e.version.getD w.zero) t i) := by
      rw [hg, hne, h1]; simp [he]
    have huniq : ∀ y e', Chooses w p tag req y → p.versions.get? y = some e' → e' = e := by
      intro y e' hy he'
      have := chooses_unique hle hx hy
      subst this
      rw [he] at he'; cases he'; rfl
    refine ⟨fun v t i => ?_, ?_, ?_⟩
    · rw [hg']
      constructor
      · intro h
        split at h
        · cases h
        · next t' ht =>
          split at h
          · cases h
          · next i' hi => cases h; exact ⟨x, e, hx, he, rfl, ht, hi⟩
      · rintro ⟨y, e', hy, he', rfl, ht, hi⟩
        have := huniq y e' hy he'
        subst this
        simp [ht, hi]
    · rw [hg']
      constructor
      · intro h
        split at h
        · cases h
        · split at h
          · next hi => cases h; exact absurd hi (hint e)
          · cases h
      · intro h; exact absurd ⟨x, hx⟩ h
    · intro res h
      rw [hg'] at h
      split at h
      · cases h
      · split at h
        · cases h
        · cases h; exact ⟨_, _, _, rfl⟩
  · have hnone : getResolution w baseDir tag name s p = .error .noVersion := by
      rw [hg]
      split
      · rfl
      · have : (chooseTarget w p tag req).bind p.versions.get? = none := by
          cases hx : chooseTarget w p tag req with
          | none => rfl
          | some x =>
            cases he : p.versions.get? x with
            | none => exact he
            | some e => exact absurd ⟨x, (choose_iff hle p tag req x).mp ⟨hx, e, he⟩⟩ hc
        rw [this]
    refine ⟨fun v t i => ?_, ?_, ?_⟩
    · rw [hnone]
      constructor
      · intro h; cases h
      · rintro ⟨x, e, hx, _⟩; exact absurd ⟨x, hx⟩ hc
    · simp [hnone, hc]
    · intro res h; rw [hnone] at h; cases h

theorem checksum_iff (w : World V R I) (e : VersionMeta V) (i : Option I) : integrityOf w e = .ok i ↔ Checksum w e i := by
  constructor
  · intro h
    unfold integrityOf at h
    split at h
    · next s hs =>
      split at h
      · next x hx => cases h; exact .listed hs hx
      · cases h
    · next hn =>
      split at h
      · next s hs =>
        split at h
        · next x hx => cases h; exact .sha1 hn hs hx
        · cases h
      · next hn' => cases h; exact .none hn hn'
  · intro h
    unfold integrityOf
    cases h with
    | listed h1 h2 => simp [h1, h2]
    | sha1 h1 h2 h3 => simp [h1, h2]; simp at h3; simp [h3]
    | none h1 h2 => simp [h1, h2]

/-- C19.  Resolving a registry specifier (possibly behind aliases) succeeds exactly with the data the registry lists
and the checksum recorded (`Checksum`), under the version `Chooses` names – the exact version, the tag's version, the default tag's version if the range
contains it, else the highest version in the range – and otherwise it is an error. -/
theorem C19_selection [DecidableEq V] (w : World V R I) (hle : TotalLe w.le) (p : Packument V)
    (baseDir tag name : Str) (s : PackageSpec V R U) (sc : Option Str) (n : Str) (req : Option (VersionSpec V R))
    (hs : Unaliased s (.npm sc n req)) :
    (∀ v t i, getResolution w baseDir tag name s p = .ok (.npm name v t i) ↔
      ∃ x e, Chooses w p tag req x ∧ p.versions.get? x = some e ∧ v = e.version.getD w.zero ∧ e.tarball = some t ∧
        Checksum w e i) ∧
    (getResolution w baseDir tag name s p = .error .noVersion ↔ ¬ ∃ x, Chooses w p tag req x) ∧
    (∀ res, getResolution w baseDir tag name s p = .ok res → ∃ v t i, res = .npm name v t i) := by
  simpa only [checksum_iff] using selection_aux w hle p baseDir tag name s sc n req hs

/-- C19, soundness in the words of the property: if the registry's metadata is consistent, the version returned is
published and meets the request – except that the range `*` may return a pre-release the default tag points at, when
the range contains no published version at all. -/
theorem C19_sound [DecidableEq V] (w : World V R I) (hle : TotalLe w.le) (p : Packument V) (hcons : Consistent p)
    (baseDir tag name : Str) (s : PackageSpec V R U) (sc : Option Str) (n : Str) (req : Option (VersionSpec V R))
    (hs : Unaliased s (.npm sc n req)) (v : V) (t : Str) (i : Option I)
    (h : getResolution w baseDir tag name s p = .ok (.npm name v t i)) :
    Published p v ∧ (Meets w p tag req v ∨
      ∃ r, req = some (.range r) ∧ w.isStar r = true ∧ (∀ u, Published p u → w.sat r u = false) ∧
        p.tags.get? tag = some v) := by
  obtain ⟨x, e, hx, he, rfl, -, -⟩ := ((C19_selection w hle p baseDir tag name s sc n req hs).1 v t i).mp h
  have hv : e.version.getD w.zero = x := by rw [hcons x e he]; rfl
  rw [hv]
  refine ⟨⟨e, he⟩, ?_⟩
  cases hx with
  | exact => exact Or.inl rfl
  | tagged ht _ => exact Or.inl ht
  | bare ht _ => exact Or.inl ht
  | preferred _ _ hs => exact Or.inl hs
  | highest _ hs _ _ => exact Or.inl hs
  | star h1 h2 h3 _ => exact Or.inr ⟨_, rfl, h1, h2, h3⟩

/-- C19, the remaining gap: the version *reported* is the one inside the metadata.  If a registry omits it there, the
result is version 0.0.0, whatever was asked for. -/
theorem C19_unversioned [DecidableEq V] (w : World V R I) (p : Packument V) (baseDir tag name t : Str) (sc : Option Str)
    (n : Str) (v : V) (h : p.versions.get? v = some { version := none, tarball := some t, integrity := none, shasum := none }) :
    getResolution w baseDir tag name (.npm sc n (some (.version v)) : PackageSpec V R U) p =
      .ok (.npm name w.zero t none) := by
  have hne : p.versions.isEmpty = false := by
    cases hv : p.versions with
    | nil => rw [hv] at h; cases h
    | cons => rfl
  simp [getResolution, PackageSpec.target, hne, chooseTarget, directTarget, h, integrityOf]

-- the default tag's version 3 is preferred over the higher 7; without it in range, the highest is taken;
-- the pre-release rule for `*`; and an unsatisfiable range
example : getResolution (U := Str) ExS.world ['b'] ExS.latest ['x'] (.npm none ['x'] (some (.range [1, 2, 3, 7]))) ExS.pack =
    .ok (.npm ['x'] 3 ['u'] (some ['i'])) := rfl
example : getResolution (U := Str) ExS.world ['b'] ExS.latest ['x'] (.alias ['y'] (.npm none ['x'] (some (.range [1, 2, 7])))) ExS.pack =
    .ok (.npm ['x'] 7 ['u'] (some ['i'])) := rfl
example : getResolution (U := Str) ExS.world ['b'] ExS.latest ['x'] (.npm none ['x'] (some (.range [100]))) ExS.pack =
    .ok (.npm ['x'] 3 ['u'] (some ['i'])) := rfl
example : getResolution (U := Str) ExS.world ['b'] ExS.latest ['x'] (.npm none ['x'] (some (.range [9]))) ExS.pack =
    .error .noVersion := rfl
example : TotalLe ExS.world.le ∧ Consistent ExS.pack :=
  ⟨ExS.world_total, by
    intro v e h
    have hm := IMap.mem_of_get? h
    simp [ExS.pack] at hm
    rcases hm with ⟨rfl, rfl⟩ | ⟨rfl, rfl⟩ | ⟨rfl, rfl⟩ | ⟨rfl, rfl⟩ <;> rfl⟩

/-! ## C20: the satisfaction test -/

/-- C20.  The test looks only at the specifier without its aliases; an exact-version request is satisfied exactly by
that version, a range exactly by the versions it contains, a directory exactly by that directory; and different kinds
never satisfy each other. -/
theorem C20_satisfies [DecidableEq V] (w : World V R I) (s t : PackageSpec V R U) (hs : Unaliased s t) :
    (∀ name v tb i sc n x, t = .npm sc n (some (.version x)) →
      ((Resolution.npm name v tb i : Resolution V R U I).satisfies w s = some true ↔ v = x)) ∧
    (∀ name v tb i sc n r, t = .npm sc n (some (.range r)) →
      ((Resolution.npm name v tb i : Resolution V R U I).satisfies w s = some true ↔ w.sat r v = true)) ∧
    (∀ name path q, t = .dir q →
      ((Resolution.dir name path : Resolution V R U I).satisfies w s = some true ↔ w.canonicalize q = some path)) ∧
    (∀ res : Resolution V R U I, res.satisfies w s = some true →
      (∃ name v tb i sc n req, res = .npm name v tb i ∧ t = .npm sc n req) ∨
      (∃ name p q, res = .dir name p ∧ t = .dir q)) := by
  have ht : s.target = t := (unaliased_det hs).symm
  refine ⟨?_, ?_, ?_, ?_⟩
  · rintro name v tb i sc n x rfl
    simp [Resolution.satisfies, ht]
  · rintro name v tb i sc n x rfl
    simp [Resolution.satisfies, ht]
  · rintro name path q rfl
    simp only [Resolution.satisfies, ht]
    cases w.canonicalize q with
    | none => simp
    | some c => simp [eq_comm]
  · intro res h
    unfold Resolution.satisfies at h
    rw [ht] at h
    split at h
    · exact Or.inl ⟨_, _, _, _, _, _, _, rfl, rfl⟩
    · exact Or.inr ⟨_, _, _, rfl, rfl⟩
    · cases h
    · cases h

example : (Resolution.npm ['x'] 3 ['u'] none : Resolution Nat (List Nat) Str Str).satisfies ExS.world
    (.alias ['y'] (.npm none ['x'] (some (.range [2, 3])))) = some true := rfl
example : (Resolution.npm ['x'] 3 ['u'] none : Resolution Nat (List Nat) Str Str).satisfies ExS.world
    (.npm none ['x'] (some (.version 4))) = some false := rfl
example : (Resolution.dir ['x'] ['/','p'] : Resolution Nat (List Nat) Str Str).satisfies ExS.world (.dir ['p']) = some true := rfl

/-! ## C53: what was resolved satisfies what was asked for -/

/-- C53 is false: a package resolved for a tag, for no version at all, or from git never satisfies the specifier it was
resolved from (so such a requirement is never met by an already placed or locked copy). -/
theorem C53_fails [DecidableEq V] (w : World V R I) (s : PackageSpec V R U) :
    (∀ sc n t, Unaliased s (.npm sc n (some (.tag t))) → ∀ res : Resolution V R U I, res.satisfies w s = some false) ∧
    (∀ sc n, Unaliased s (.npm sc n none) → ∀ res : Resolution V R U I, res.satisfies w s = some false) ∧
    (∀ i, Unaliased s (.git i) → ∀ res : Resolution V R U I, res.satisfies w s = some false) := by
  refine ⟨?_, ?_, ?_⟩
  · intro sc n t h res
    have ht := (unaliased_det h).symm
    unfold Resolution.satisfies; rw [ht]
    cases res <;> rfl
  · intro sc n h res
    have ht := (unaliased_det h).symm
    unfold Resolution.satisfies; rw [ht]
    cases res <;> rfl
  · intro i h res
    have ht := (unaliased_det h).symm
    unfold Resolution.satisfies; rw [ht]
    cases res <;> rfl

-- such specifiers do resolve
example : getResolution (U := Str) ExS.world ['b'] ExS.latest ['x'] (.npm none ['x'] (some (.tag ['n']))) ExS.pack =
    .ok (.npm ['x'] 7 ['u'] (some ['i'])) := rfl

/-- C53, the part that holds: for an exact version or a range (that is not the pre-release case of `*`), with a
consistent registry, the resolved package satisfies the specifier.  Missing: tags, bare names, git (`C53_fails`) and
relative directories (`C53_dir_fails`). -/
theorem C53_resolved_satisfies_partial [DecidableEq V] (w : World V R I) (hle : TotalLe w.le) (p : Packument V)
    (hcons : Consistent p) (baseDir tag name : Str) (s : PackageSpec V R U) (sc : Option Str) (n : Str)
    (req : VersionSpec V R) (hs : Unaliased s (.npm sc n (some req))) (htag : ∀ t, req ≠ .tag t)
    (hstar : ∀ r, req = .range r → w.isStar r = false) (res : Resolution V R U I)
    (h : getResolution w baseDir tag name s p = .ok res) : res.satisfies w s = some true := by
  obtain ⟨-, -, hkind⟩ := C19_selection w hle p baseDir tag name s sc n (some req) hs
  obtain ⟨v, t, i, rfl⟩ := hkind res h
  obtain ⟨-, hm⟩ := C19_sound w hle p hcons baseDir tag name s sc n (some req) hs v t i h
  obtain ⟨c1, c2, -, -⟩ := C20_satisfies (U := U) w s _ hs
  cases req with
  | tag t => exact absurd rfl (htag t)
  | version x =>
    rcases hm with hm | ⟨r, hr, _⟩
    · exact (c1 name v t i sc n x rfl).mpr hm
    · cases hr
  | range r =>
    rcases hm with hm | ⟨r', hr, hst, _⟩
    · exact (c2 name v t i sc n r rfl).mpr hm
    · cases hr; rw [hstar r rfl] at hst; cases hst

/-- C53 for directories: resolving uses the project folder, the test uses the working directory of the process; if
these differ, a relative directory does not satisfy its own specifier. -/
theorem C53_dir_fails [DecidableEq V] (w : World V R I) (baseDir tag name path a b : Str) (p : Packument V)
    (ha : w.canonicalize (w.join baseDir path) = some a) (hb : w.canonicalize path = some b) (hab : a ≠ b) :
    getResolution w baseDir tag name (.dir path : PackageSpec V R U) p = .ok (.dir name a) ∧
    (Resolution.dir name a : Resolution V R U I).satisfies w (.dir path) = some false := by
  simp [getResolution, PackageSpec.target, ha, Resolution.satisfies, hb, hab]

/-! ## C21: printing and parsing -/

/-- C21, the part that holds: every specifier the parser returns, and that is not one of the listed exceptions,
prints to a text that parses to the same specifier. -/
theorem C21_roundtrip_partial (E : SpecEnv V R U) (s : Str) (a : PackageSpec V R U) (h : parse E s = .ok a)
    (hp : PrintsBack E a) : parse E (a.show E) = .ok a :=
  parse_show h hp

-- names, scopes, tags, ranges, aliases, paths and git specifiers go around
example : ∃ a, parse ExS.env ['f','o','o','@','^','1','.','2'] = .ok a ∧ PrintsBack ExS.env a :=
  ⟨.npm none ['f','o','o'] (some (.range ['^','1','.','2'])), by decide +kernel, by decide, (fun t h => by cases h),
    ⟨rfl, ⟨⟨'^', rfl, by decide, by decide⟩, by decide⟩⟩, rfl⟩
example : ∃ a, parse ExS.env ['@','s','/','y','@','n','p','m',':','f','o','o','@','n','e','x','t'] = .ok a ∧ PrintsBack ExS.env a :=
  ⟨.alias ['@','s','/','y'] (.npm none ['f','o','o'] (some (.tag ['n','e','x','t']))), by decide +kernel, trivial⟩
example : ∃ a, parse ExS.env ['f','i','l','e',':','.','/','f','o','o'] = .ok a ∧ PrintsBack ExS.env a :=
  ⟨.dir ['.','/','f','o','o'], by decide +kernel, show '@' ∉ ['.','/','f','o','o'] by decide⟩
example : ∃ a, parse ExS.env ['a','/','b','#','m'] = .ok a ∧ PrintsBack ExS.env a :=
  ⟨.git (.hosted ['a'] ['b'] .github (some ['m']) none none), by decide +kernel, fun r h => by cases h⟩
example : ∃ a, parse ExS.env (kGitPlus ++ ['h',':','/','/','x','/','y','#','m']) = .ok a ∧ PrintsBack ExS.env a :=
  ⟨.git (.url ['h',':','/','/','x','/','y'] (some ['m']) none), by decide +kernel, (fun r h => by cases h),
    ⟨by decide +kernel, by decide, by decide⟩, by decide⟩

/-- C21 is false: (a) a tag starting with a dot prints like an alias for a directory; (b) an ssh address of one of the
known hosts parses, but its printed form does not.  Both hold for every such name, tag, user, owner and repository. -/
theorem C21_fails (E : SpecEnv V R U) :
    (∀ n t : Str, n ≠ [] → safe n = true → safe ('.' :: t) = true → E.parseV ('.' :: t) = none →
      E.parseR ('.' :: t) = none →
      parse E (kNpm ++ (n ++ '@' :: '.' :: t)) = .ok (.npm none n (some (.tag ('.' :: t)))) ∧
      parse E ((PackageSpec.npm none n (some (.tag ('.' :: t))) : PackageSpec V R U).show E) =
        .ok (.alias n (.dir ('.' :: t)))) ∧
    (∀ (user o n : Str) (h : GitHost), user ≠ [] → safe user = true → safe o = true → safe n = true →
      E.parseU (kSsh ++ (user ++ '@' :: (hostText h ++ ':' :: (o ++ '/' :: n)))) = none →
      E.parseU (user ++ '@' :: (hostText h ++ ':' :: (o ++ '/' :: n))) = none →
      ∃ a, parse E (kGitPlus ++ kSsh ++ (user ++ '@' :: (hostText h ++ ':' :: (o ++ '/' :: n)))) = .ok a ∧
        parse E (a.show E) = .error) := by
  refine ⟨fun n t h1 h2 h3 h4 h5 => dot_tag ⟨h1, h2⟩ h3 h4 h5, ?_⟩
  intro user o n h h1 h2 h3 h4 h5 h6
  obtain ⟨i, ha, _, hb⟩ := ssh_hosted ⟨h1, h2⟩ h3 h4 h5 h6
  exact ⟨.git i, ha, hb⟩

example : ExS.env.parseU (kSsh ++ (['g','i','t'] ++ '@' :: (hostText .github ++ ':' :: (['a'] ++ '/' :: ['b'])))) = none ∧
    ExS.env.parseU (['g','i','t'] ++ '@' :: (hostText .github ++ ':' :: (['a'] ++ '/' :: ['b']))) = none := by
  decide +kernel

/-- C21, crash: for an address of a known host with an empty path (`git://github.com`) the parser panics. -/
theorem C21_panics (E : SpecEnv V R U) (t : Str) (u : U) (h : GitHost) (ht : '#' ∉ t)
    (hu : E.parseU (kGitSlash ++ t) = some u) (hh : (E.host u).bind knownHost = some h) (hp : E.path u = []) :
    parse E (kGitSlash ++ t) = .panic :=
  bare_host_panics ht hu hh hp

example : parse ExS.env (kGitSlash ++ hostText .github) = .panic := by decide +kernel

/-! ## C22: targets of aliases -/

/-- C22.  Every specifier is its target wrapped in some aliases; the target is never an alias; a specifier is an npm
one exactly if its target is; and writing through the target changes only the target. -/
theorem C22_target (s : PackageSpec V R U) :
    ∃ ns, s = wrap ns s.target ∧ (∀ n t, s.target ≠ .alias n t) ∧
      (s.isNpm = true ↔ ∃ sc n req, s.target = .npm sc n req) ∧
      ∀ f, s.modifyTarget f = wrap ns (f s.target) := by
  induction s with
  | dir p => exact ⟨[], rfl, by simp [PackageSpec.target], by simp [PackageSpec.target, PackageSpec.isNpm], fun _ => rfl⟩
  | npm a b c => exact ⟨[], rfl, by simp [PackageSpec.target], by simp [PackageSpec.target, PackageSpec.isNpm], fun _ => rfl⟩
  | git i => exact ⟨[], rfl, by simp [PackageSpec.target], by simp [PackageSpec.target, PackageSpec.isNpm], fun _ => rfl⟩
  | «alias» n s ih =>
    obtain ⟨ns, h1, h2, h3, h4⟩ := ih
    have ht : (PackageSpec.alias n s).target = s.target := by cases s <;> rfl
    refine ⟨n :: ns, ?_, ?_, ?_, ?_⟩
    · rw [ht]; show _ = PackageSpec.alias n (wrap ns s.target); rw [← h1]
    · rw [ht]; exact h2
    · rw [ht]; exact h3
    · intro f
      rw [ht]
      show PackageSpec.alias n (if s.isAlias then s.modifyTarget f else f s) = PackageSpec.alias n (wrap ns (f s.target))
      rw [← h4 f]
      cases s <;> rfl

example : (PackageSpec.alias ['a'] (.alias ['b'] (.dir ['.'])) : PackageSpec Nat Nat Nat).target = .dir ['.'] := rfl

end Oro
