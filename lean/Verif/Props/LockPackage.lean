import Verif.Spec.LockPackage
import Verif.Proofs.Forms
import Verif.Props.Specs
import Verif.Props.Lockfile
/- Property C60: a lockfile entry reads back as the package it records. -/

set_option linter.unusedSectionVars false

namespace Oro
open PSpec Nassun
variable {V R U I : Type}

theorem parse_written {E : SpecEnv V R U} (hE : E.alphabetic '/' = false) {s : Str} {a : PackageSpec V R U}
    (h : Written E s a) : parse E s = .ok a := by
  unfold parse; rw [written_text hE h]

theorem pinned_committish {i : GitInfo R U} {c : Str} : i.committish = some c ↔ Pinned i c := by
  constructor
  · intro h
    cases i <;> simp only [GitInfo.committish] at h <;> subst h <;> constructor
  · intro h; cases h <;> rfl

/-- **C60**, for the packages described by `Readable`: reading the entry gives a package of the same name from the same
place – same version, address and integrity; same directory; same repository and commit – without asking the registry
or anyone else. -/
theorem C60_reads_back_partial (E : SpecEnv V R U) (hE : E.alphabetic '/' = false) (n : LNode V I) (sc : Option Str)
    (hn : NameText sc n.name) (res : Resolution V R U I) (hr : Readable E res) (hname : resolutionName res = n.name)
    (hrec : Records n (res.recorded E)) : ∃ «from», n.toPackage E = .package n.name «from» res := by
  cases hr with
  | @npm name t v u i h1 h2 h3 h4 =>
    obtain ⟨r1, r2, r3⟩ := hrec
    have hname : name = n.name := hname
    refine ⟨.npm sc n.name (some (.version v)), ?_⟩
    have htext : n.specText E = some (n.name ++ '@' :: E.showV v) := by
      simp [LNode.specText, r1, r2, List.isPrefixOf_iff_prefix.mpr h2]
    have := parse_written hE (.registry (.req hn h1))
    simp [LNode.toPackage, htext, this, LNode.ofSpec, PackageSpec.target, r1, r2, h3, h4, r3, hname]
  | @dir name p hp =>
    obtain ⟨r1, r2, r3⟩ := hrec
    have hname : name = n.name := hname
    refine ⟨.alias n.name (.dir p), ?_⟩
    have htext : n.specText E = some (n.name ++ '@' :: p) := by simp [LNode.specText, r1, r2]
    have := parse_written hE (.alias hn (.path hp))
    simp [LNode.toPackage, htext, this, LNode.ofSpec, PackageSpec.target, PackageSpec.isAlias, hname]
  | @git name s c i hs hp hc =>
    obtain ⟨r1, r2, r3⟩ := hrec
    have hname : name = n.name := hname
    refine ⟨.alias n.name (.git i), ?_⟩
    have htext : n.specText E = some (n.name ++ '@' :: i.show E) := by simp [LNode.specText, r1, r2]
    have hparse : parse E (n.name ++ '@' :: i.show E) = .ok (.alias n.name (.git i)) := by
      have hshape : GitShape E i := packageSpec_inv (parse_inv hs)
      obtain ⟨m, h1, h2, h3, h4, _⟩ := nameText_shape hn
      have := packageSpec_show (E := E) (a := .alias n.name (.git i))
        ⟨⟨sc.map ('@' :: ·), m, by rw [h1]; cases sc <;> rfl, h2, h3, by
          intro x hx
          cases sc with
          | none => cases hx
          | some y => cases hx; exact ⟨y, Or.inr rfl, h4 y rfl⟩⟩, hshape⟩ hp
      unfold parse
      rw [show n.name ++ '@' :: i.show E = (PackageSpec.alias n.name (.git i) : PackageSpec V R U).show E from rfl, this]
    have hc := pinned_committish.2 hc
    simp [LNode.toPackage, htext, hparse, LNode.ofSpec, PackageSpec.target, PackageSpec.isAlias, hname, hc]

/-- C60 for entries that say less, as those of other tools may: an entry with a version alone asks the registry for just
that version of the package; one that says nothing gives no package; one with an http address that cannot be read is an
error. -/
theorem C60_less (E : SpecEnv V R U) (hE : E.alphabetic '/' = false) (n : LNode V I) (sc : Option Str) (hn : NameText sc n.name) :
    (n.resolved = none → n.version = none → n.toPackage E = .nothing) ∧
    ∀ v, n.version = some v → ReqText E (E.showV v) (.version v) →
      (n.resolved = none → n.toPackage E = .ask (n.name ++ '@' :: E.showV v)) ∧
      ∀ t, n.resolved = some t → ['h','t','t','p'] <+: t → E.parseU t = none → n.toPackage E = .badUrl := by
  constructor
  · intro h1 h2
    simp [LNode.toPackage, LNode.specText, h1, h2]
  · intro v hv h1
    have := parse_written hE (.registry (.req hn h1))
    constructor
    · intro hr
      have htext : n.specText E = some (n.name ++ '@' :: E.showV v) := by simp [LNode.specText, hr, hv]
      simp [LNode.toPackage, htext, this, LNode.ofSpec, PackageSpec.target, hr, hv, PackageSpec.show, showReq, VersionSpec.show]
    · intro t ht hpre hu
      have htext : n.specText E = some (n.name ++ '@' :: E.showV v) := by
        simp [LNode.specText, ht, hv, List.isPrefixOf_iff_prefix.mpr hpre]
      simp [LNode.toPackage, htext, this, LNode.ofSpec, PackageSpec.target, ht, hv, hu]

/-- **C60 fails** for git repositories without a commit: the tree records the repository as it was written, so the lockfile
pins nothing, and reading the entry fetches whatever the repository holds by then. -/
theorem C60_unpinned_fails (E : SpecEnv V R U) (n : LNode V I) (sc : Option Str) (hn : NameText sc n.name)
    (i : GitInfo R U) (s : Str) (hs : parse E s = .ok (.git i)) (hp : GitPrints E i)
    (hc : ∀ c, ¬ Pinned i c) (hrec : Records n (.git (i.show E))) :
    n.toPackage E = .ask (n.name ++ '@' :: i.show E) := by
  obtain ⟨r1, r2, r3⟩ := hrec
  have htext : n.specText E = some (n.name ++ '@' :: i.show E) := by simp [LNode.specText, r1, r2]
  have hparse : parse E (n.name ++ '@' :: i.show E) = .ok (.alias n.name (.git i)) := by
    have hshape : GitShape E i := packageSpec_inv (parse_inv hs)
    obtain ⟨m, h1, h2, h3, h4, _⟩ := nameText_shape hn
    have := packageSpec_show (E := E) (a := .alias n.name (.git i))
      ⟨⟨sc.map ('@' :: ·), m, by rw [h1]; cases sc <;> rfl, h2, h3, by
        intro x hx
        cases sc with
        | none => cases hx
        | some y => cases hx; exact ⟨y, Or.inr rfl, h4 y rfl⟩⟩, hshape⟩ hp
    unfold parse
    rw [show n.name ++ '@' :: i.show E = (PackageSpec.alias n.name (.git i) : PackageSpec V R U).show E from rfl, this]
  have hc : i.committish = none := by
    cases h : i.committish with
    | none => rfl
    | some c => exact absurd (pinned_committish.1 h) (hc c)
  simp [LNode.toPackage, htext, hparse, LNode.ofSpec, PackageSpec.target, PackageSpec.isAlias, hc, PackageSpec.show]

/-- What resolving a git specifier records: the specifier's repository as written, whatever commit was fetched. -/
theorem C60_git_not_pinned [DecidableEq V] (w : World V R I) (baseDir tag name : Str) (p : Packument V) (i : GitInfo R U) :
    getResolution w baseDir tag name (.git i : PackageSpec V R U) p = .ok (.git name i) := rfl

/-- **C60 fails** for a linked workspace of an npm lockfile, whose entry says just `folder/name`: it reads as a GitHub
repository. -/
theorem C60_workspace_fails (E : SpecEnv V R U) (hE : E.alphabetic '/' = false) (n : LNode V I) (sc : Option Str)
    (hn : NameText sc n.name) (o r : Str) (ho : o ≠ []) (hs : UrlSafe o) (hd : o.head? ≠ some '.') (h1 : '#' ∉ r)
    (h2 : '@' ∉ r) (hr : n.resolved = some (o ++ '/' :: r)) (hv : n.version = none) :
    n.toPackage E = .ask (n.name ++ '@' :: (['g','i','t','h','u','b',':'] ++ (o ++ '/' :: r))) := by
  have htext : n.specText E = some (n.name ++ '@' :: (o ++ '/' :: r)) := by simp [LNode.specText, hr, hv]
  have hform : GitForm E (o ++ '/' :: r) (.hosted o r .github none none none) := by
    have := GitForm.short (E := E) (c := []) ho hs hd h1 h2 (by simp) .nothing
    simpa using this
  have := parse_written hE (.alias hn (.git hform))
  simp [LNode.toPackage, htext, this, LNode.ofSpec, PackageSpec.target, PackageSpec.isAlias, GitInfo.committish,
    PackageSpec.show, GitInfo.show, GitHost.show, showComm]

/-- an ssh address of a known host, as a lockfile has it -/
theorem ssh_entry_err {E : SpecEnv V R U} {T : Str} (hT : '#' ∉ T) (hne : T ≠ []) (hssh : tagNC kSsh T = .err)
    (hraw : E.parseU T = none) : gitSpec E (kGitPlus ++ T) = .err := by
  obtain ⟨e1, e2, e3⟩ := gitText_errs E (s := kGitPlus ++ T) ⟨T, Or.inl rfl⟩
  have e4 : gitUrl E (kGitPlus ++ T) = .err := by
    have : takeTill1 (· == '#') (T ++ []) = .ok [] T := takeTill1_show hne (notMem_bne hT) (by simp)
    rw [List.append_nil] at this
    unfold gitUrl
    rw [alt_of_ok (tagNC_append _ _), ok_bind, this, ok_bind, hraw]
  have e5 : gitScp E (kGitPlus ++ T) = .err := by
    unfold gitScp
    rw [opt_of_ok (tagNC_append _ _), ok_bind, hssh, err_bind]
  unfold gitSpec
  rw [alt_of_err e3, alt_of_err e4, e5]; rfl

theorem tag_before {k o t : Str} {d : Char} (hd1 : d.isLower = false) (hd2 : d.toLower = d) (hk : ':' ∈ k) (hs : d ∉ k)
    (ho : ':' ∉ o) : tagNC k (o ++ d :: t) = .err := by
  induction k generalizing o with
  | nil => cases hk
  | cons x k ih =>
    cases o with
    | nil =>
      rw [List.nil_append, tagNC, if_neg]
      intro hl
      rw [hd2] at hl
      exact hs (by simp [toLower_eq_self_of hd1 hl])
    | cons y o =>
      rw [List.cons_append, tagNC]
      by_cases hl : x.toLower = y.toLower
      · rw [if_pos hl]
        by_cases hx : x = ':'
        · subst hx
          have h' : ':'.toLower = ':' := by decide
          rw [h'] at hl
          have := toLower_eq_self_of (by decide) hl.symm
          exact absurd (by simp [this]) ho
        · exact ih (by simpa [Ne.symm hx] using hk) (fun h => hs (by simp [h])) (fun h => ho (by simp [h]))
      · rw [if_neg hl]

theorem hostPrefix_at {o t : Str} (ho : ':' ∉ o) : hostPrefix (o ++ '@' :: t) = .err := by
  refine (hostPrefix_soft _).eq_err fun r g hh => ?_
  unfold hostPrefix at hh
  obtain ⟨s1, g', hg, hh⟩ := bind_ok.mp hh
  obtain ⟨s2, u, hc, _⟩ := bind_ok.mp hh
  have key : ∀ (h : GitHost), ((tagNC h.show (o ++ '@' :: t)).map fun _ => h) = .ok s1 g' → False := by
    intro h hm
    obtain ⟨_, hm, _⟩ := map_ok.mp hm
    have : tagNC (h.show ++ [':']) (o ++ '@' :: t) = .err :=
      tag_before (by decide) (by decide) (by simp) (by cases h <;> decide) ho
    rw [tagNC_append_bind, hm, ok_bind, hc] at this
    cases this
  rcases alt_ok.mp hg with h | ⟨_, h⟩
  · exact key _ h
  rcases alt_ok.mp h with h | ⟨_, h⟩
  · exact key _ h
  rcases alt_ok.mp h with h | ⟨_, h⟩
  · exact key _ h
  · exact key _ h

/-- `name@X` where `X` is neither a prefixed specifier nor a version, range or tag: not a specifier -/
theorem named_error {E : SpecEnv V R U} {sc : Option Str} {m X : Str} (hn : NameText sc m)
    (hpre : prefixedSpec E X = .err) (hreq : cut (versionReq E) X = .fail) : parse E (m ++ '@' :: X) = .error := by
  obtain ⟨n, rfl, h1, h2, h3, h5⟩ := nameText_shape hn
  have hcol : ':' ∉ fullName sc n := by
    have hn' := safe_notMem h2 (c := ':') (by decide)
    cases sc with
    | none => exact hn'
    | some x => simp [fullName, hn', safe_notMem (h3 x rfl).2 (c := ':') (by decide)]
  have tagc : ∀ {k : Str}, ':' ∈ k → '@' ∉ k → tagNC k (fullName sc n ++ '@' :: X) = .err :=
    fun hk hat => tag_before (by decide) (by decide) hk hat hcol
  have e1 : aliasSpec E (fullName sc n ++ '@' :: X) = .err := by
    have hfull : fullName sc n = aliasName (sc.map ('@' :: ·)) n := by cases sc <;> rfl
    rw [hfull, aliasSpec_front h1 h2 (by
      intro x hx
      cases sc with
      | none => cases hx
      | some y => cases hx; obtain ⟨a, b⟩ := h3 y rfl; exact ⟨y, Or.inr rfl, a, b⟩) (by simp), tag_at]
    simp [hpre, Res.map]
  have hhead : ∀ c, (fullName sc n ++ '@' :: X).head? = some c → c ≠ '.' ∧ isSep c = false := by
    intro c hc
    cases sc with
    | some x => simp [fullName] at hc; subst hc; decide
    | none =>
      cases n with
      | nil => exact absurd rfl h1
      | cons d n =>
        simp [fullName] at hc; subst hc
        refine ⟨by simpa [fullName] using h5, ?_⟩
        simp only [isSep, Bool.or_eq_false_iff, beq_eq_false_iff_ne]
        exact ⟨fun h => safe_notMem h2 (c := '/') (by decide) (by simp [h]),
          fun h => safe_notMem h2 (c := '\\') (by decide) (by simp [h])⟩
  have e2 : filePath E (fullName sc n ++ '@' :: X) = .err := by
    refine filePath_err E (tagc (by decide) (by decide)) (fun h => (hhead _ h).1 rfl) (fun c hc => (hhead c hc).2) ?_
    intro x t hx
    cases sc with
    | some y =>
      obtain ⟨hy1, hy2⟩ := h3 y rfl
      cases y with
      | nil => exact absurd rfl hy1
      | cons z y =>
        simp [fullName] at hx
        exact safe_notMem hy2 (c := ':') (by decide) (by simp [hx.2.1])
    | none =>
      match n, hx with
      | [], hx => exact absurd rfl h1
      | [y], hx => simp [fullName] at hx
      | y :: z :: n, hx =>
        simp [fullName] at hx
        exact safe_notMem h2 (c := ':') (by decide) (by simp [hx.2.1])
  have e3 : gitShorthand E (fullName sc n ++ '@' :: X) = .err := by
    cases sc with
    | some x => exact gitShorthand_err E (a := []) (x := '@') (hostPrefix_at (o := []) (by simp)) (by simp) (by decide) (by decide)
    | none => exact gitShorthand_err E (a := n) (x := '@') (hostPrefix_at hcol) (safe_notMem h2 (by decide)) (by decide) (by decide)
  have eg : tagNC kGitPlus (fullName sc n ++ '@' :: X) = .err := by
    cases sc with
    | some x => rfl
    | none => exact gitPlus_err h2 (by simp)
  have e4 : gitSpec E (fullName sc n ++ '@' :: X) = .err := by
    unfold gitSpec
    rw [alt_of_err e3]
    have : gitUrl E (fullName sc n ++ '@' :: X) = .err := by
      unfold gitUrl
      rw [alt_of_err eg, tagc (by decide) (by decide)]; rfl
    rw [alt_of_err this]
    unfold gitScp
    rw [opt_of_err eg, ok_bind, tagc (by decide) (by decide)]; rfl
  have e5 : npmSpec E (fullName sc n ++ '@' :: X) = .fail := by
    have s1 : opt npmScope (fullName sc n ++ '@' :: X) = .ok (n ++ '@' :: X) sc := by
      cases sc with
      | none =>
        apply opt_of_err
        have : n.head? ≠ some '@' := by
          intro h
          exact safe_notMem h2 (c := '@') (by decide) (List.mem_of_head? h)
        cases n with
        | nil => exact absurd rfl h1
        | cons c n =>
          have hc : c ≠ '@' := by simpa using this
          unfold npmScope
          simp only [fullName, List.cons_append]
          split
          · next h => cases h; exact absurd rfl hc
          · rfl
      | some x =>
        obtain ⟨hx1, hx2⟩ := h3 x rfl
        apply opt_of_ok
        have : safeTill1 (· == '/') (x ++ '/' :: (n ++ '@' :: X)) = .ok ('/' :: (n ++ '@' :: X)) x :=
          safeTill1_ok.mpr ⟨hx2, takeTill1_show hx1 (notMem_bne (safe_notMem hx2 (by decide))) (by simp)⟩
        simp [npmScope, fullName, Res.bind, this]
    have s2 := nameTill (E := E) (some (.tag X)) h1 h2
    simp only [showReq, VersionSpec.show] at s2
    unfold npmSpec
    rw [s1, ok_bind, s2, ok_bind]
    unfold opt
    simp only [tag_at, if_true, ok_bind, hreq]
    rfl
  unfold parse packageSpec
  rw [alt_of_err e1, alt_of_err e2, alt_of_err e4, opt_of_err (tagc (by decide) (by decide)), ok_bind, e5]

/-- `name@git+…` where the part after `git+` is no address: not a specifier -/
theorem named_git_error {E : SpecEnv V R U} {sc : Option Str} {m T : Str} (hn : NameText sc m)
    (hg : gitSpec E (kGitPlus ++ T) = .err)
    (hV : ∀ t, E.parseV (kGitPlus ++ t) = none) (hR : ∀ t, E.parseR (kGitPlus ++ t) = none) :
    parse E (m ++ '@' :: (kGitPlus ++ T)) = .error := by
  have hpre : prefixedSpec E (kGitPlus ++ T) = .err := by
    obtain ⟨_, e2, _⟩ := gitText_errs E (s := kGitPlus ++ T) ⟨T, Or.inl rfl⟩
    unfold prefixedSpec
    rw [alt_of_err e2, alt_of_err hg]; rfl
  have hreq : cut (versionReq E) (kGitPlus ++ T) = .fail := by
    have r1 : ((wholeRes E.parseV (kGitPlus ++ T)).map VersionSpec.version : Res (VersionSpec V R)) = .err := by
      rw [wholeRes_err.mpr (Or.inr (hV T))]; rfl
    have r2 : ((wholeRes E.parseR (kGitPlus ++ T)).map VersionSpec.range : Res (VersionSpec V R)) = .err := by
      rw [wholeRes_err.mpr (Or.inr (hR T))]; rfl
    have r3 : safeTill1 (fun _ => false) (kGitPlus ++ T) = .err :=
      safeTill1_unsafe (a := ['g','i','t']) (x := '+') (by simp) rfl (by decide)
    unfold cut versionReq
    simp only [alt, r1, r2, r3]
    rfl
  exact named_error hn hpre hreq

/-- **C61 fails** for a requirement with an empty text (`"name": ""`), which npm reads as "any version": it is no specifier.
-/
theorem C61_empty_fails (E : SpecEnv V R U) (sc : Option Str) (m : Str) (hn : NameText sc m) :
    parse E (m ++ ['@']) = .error := named_error hn rfl rfl

/-- **C61 fails** for a requirement on the address of a tarball (`"name": "https://host/x.tgz"`), which npm fetches: it is no
specifier. -/
theorem C61_address_fails (E : SpecEnv V R U) (sc : Option Str) (m t : Str) (hn : NameText sc m)
    (hV : E.parseV (['h','t','t','p','s',':','/','/'] ++ t) = none)
    (hR : E.parseR (['h','t','t','p','s',':','/','/'] ++ t) = none) :
    parse E (m ++ '@' :: (['h','t','t','p','s',':','/','/'] ++ t)) = .error := by
  refine named_error hn ?_ ?_
  · have e1 : filePath E (['h','t','t','p','s',':','/','/'] ++ t) = .err :=
      filePath_err E rfl (by simp) (by intro c hc; simp at hc; subst hc; decide) (by intro x t' h; simp at h)
    have e2 : gitShorthand E (['h','t','t','p','s',':','/','/'] ++ t) = .err :=
      gitShorthand_err E (a := ['h','t','t','p','s']) (x := ':') rfl (by decide) (by decide) (by decide)
    have e3 : gitSpec E (['h','t','t','p','s',':','/','/'] ++ t) = .err := by
      unfold gitSpec; rw [alt_of_err e2]; rfl
    unfold prefixedSpec
    rw [alt_of_err e1, alt_of_err e3]; rfl
  · have r1 : ((wholeRes E.parseV (['h','t','t','p','s',':','/','/'] ++ t)).map VersionSpec.version : Res (VersionSpec V R)) = .err := by
      rw [wholeRes_err.mpr (Or.inr hV)]; rfl
    have r2 : ((wholeRes E.parseR (['h','t','t','p','s',':','/','/'] ++ t)).map VersionSpec.range : Res (VersionSpec V R)) = .err := by
      rw [wholeRes_err.mpr (Or.inr hR)]; rfl
    have r3 : safeTill1 (fun _ => false) (['h','t','t','p','s',':','/','/'] ++ t) = .err :=
      safeTill1_unsafe (a := ['h','t','t','p','s']) (x := ':') (by simp) rfl (by decide)
    unfold cut versionReq
    simp only [alt, r1, r2, r3]
    rfl

/-- **C60 fails** for a repository given by the ssh address of a known host (`git+ssh://git@github.com:o/r`): the entry
orogene itself writes is not a specifier, so the next run stops with an error. -/
theorem C60_ssh_fails (E : SpecEnv V R U) (n : LNode V I) (sc : Option Str) (hn : NameText sc n.name)
    (user o r : Str) (h : GitHost) (hu : user ≠ []) (hus : UrlSafe user) (ho : UrlSafe o) (hr : UrlSafe r)
    (hurl : E.parseU (kSsh ++ (user ++ '@' :: (hostDomain h ++ ':' :: (o ++ '/' :: r)))) = none)
    (hraw : E.parseU (user ++ '@' :: (hostDomain h ++ ':' :: (o ++ '/' :: r))) = none)
    (hV : ∀ t, E.parseV (kGitPlus ++ t) = none) (hR : ∀ t, E.parseR (kGitPlus ++ t) = none) :
    ∃ i : GitInfo R U,
      parse E (kGitPlus ++ kSsh ++ (user ++ '@' :: (hostDomain h ++ ':' :: (o ++ '/' :: r)))) = .ok (.git i) ∧
      (Records n (.git (i.show E)) → n.toPackage E = .badSpec) := by
  have hd : hostDomain h = hostText h := by cases h <;> rfl
  rw [hd] at *
  obtain ⟨i, h1, h2, h3⟩ := ssh_hosted (E := E) (h := h) ⟨hu, safe_iff.mpr hus⟩ (safe_iff.mpr ho) (safe_iff.mpr hr) hurl hraw
  refine ⟨i, h1, fun hrec => ?_⟩
  obtain ⟨r1, r2, _⟩ := hrec
  have htext : n.specText E = some (n.name ++ '@' :: (kGitPlus ++ (user ++ '@' :: (hostText h ++ ':' :: (o ++ '/' :: r))))) := by
    simp only [LNode.specText, r1, r2, h2]
  have hg : gitSpec E (kGitPlus ++ (user ++ '@' :: (hostText h ++ ':' :: (o ++ '/' :: r)))) = .err :=
    ssh_entry_err (by
      simp [safe_notMem (safe_iff.mpr ho) (c := '#') (by decide), safe_notMem (safe_iff.mpr hr) (c := '#') (by decide),
        safe_notMem (safe_iff.mpr hus) (c := '#') (by decide), (hostText_ok h).2.2]) (by simp)
      (kSsh_err (safe_iff.mpr hus) (by simp)) hraw
  simp only [LNode.toPackage, htext, named_git_error hn hg hV hR]

/-- What the resolver takes from a lockfile: for the package at location `π` there is an entry exactly if the lockfile has
a package with that path; the package is the one the entry stands for, and its requirements are those the entry lists
(runtime, development and optional; peers are not used). -/
theorem C60_entries {P : Type} (toPkg : LNode V I → Option (Option P)) (l : Lockfile V I) (π : List Str)
    (hl : l.Proper) :
    (∀ n, (∃ k, l.packages.get? k = some n) → n.path = π →
      ∃ e, (l.tree toPkg).get? π = some e ∧ e.path = π ∧ e.pkg = toPkg n ∧ e.manifest.deps = n.section .prod ∧
        e.manifest.devDeps = n.section .dev ∧ e.manifest.optDeps = n.section .opt) ∧
    ((∀ k n, l.packages.get? k = some n → n.path ≠ π) → (l.tree toPkg).get? π = none) := by
  have hwf : IMap.WF (l.tree toPkg) := by
    have h1 := hl.wf.keys
    have h2 := hl.entries
    unfold IMap.WF IMap.keys at h1 ⊢
    have e : (l.tree toPkg).map Prod.fst = l.packages.map fun p => p.2.path := by
      simp [Lockfile.tree, List.map_map, Function.comp_def]
    have e' : l.packages.map Prod.fst = (l.packages.map fun p => p.2.path).map joinPath := by
      rw [List.map_map]
      exact List.map_congr_left fun p hp => (h2 p hp).2.2
    rw [e]
    rw [e'] at h1
    exact h1.of_map _
  constructor
  · rintro n ⟨k, hk⟩ rfl
    have hm : (k, n) ∈ l.packages := IMap.mem_of_get? hk
    refine ⟨⟨n.path, toPkg n, n.manifest⟩, ?_, rfl, rfl, rfl, rfl, rfl⟩
    refine IMap.get?_of_mem hwf ?_
    exact List.mem_map.mpr ⟨(k, n), hm, rfl⟩
  · intro h
    rw [IMap.get?_eq_none_iff]
    intro hm
    obtain ⟨e, he, hpi⟩ := List.mem_map.mp hm
    obtain ⟨⟨k, n⟩, hp, rfl⟩ := List.mem_map.mp he
    exact h k n (IMap.get?_of_mem hl.wf.keys hp) hpi

/-- The requirement texts written into a lockfile read back as the same requirement: for a registry requirement and for
an alias, `name@text` is the original specifier again.  A requirement without a version is written as `*`, and a
directory or repository as itself. -/
theorem C60_requirement (E : SpecEnv V R U) (s : Str) (a : PackageSpec V R U) (h : parse E s = .ok a)
    (hp : PrintsBack E a) :
    (∀ sc n q, a = .npm sc n (some q) → parse E (n ++ '@' :: a.requested E) = .ok a) ∧
    (∀ n b, a = .alias n b → parse E (n ++ '@' :: a.requested E) = .ok a) ∧
    (∀ sc n, a = .npm sc n none → a.requested E = ['*']) ∧
    ((∃ p, a = .dir p) ∨ (∃ i, a = .git i) → parse E (a.requested E) = .ok a) := by
  have hback := parse_show h hp
  refine ⟨?_, ?_, ?_, ?_⟩
  · rintro sc n q rfl; exact hback
  · rintro n b rfl
    cases b with
    | npm sc m req => exact hback
    | dir p => exact hback
    | git i => exact hback
    | «alias» m c => exact hp.elim
  · rintro sc n rfl; rfl
  · rintro (⟨p, rfl⟩ | ⟨i, rfl⟩) <;> exact hback

/-! ### examples -/

/-- a registry package: `x` at version 1.2 from `http://r/x` -/
def ExS.entry : LNode Str Str :=
  { name := ['x'], isRoot := false, path := [['x']], resolved := some ['h','t','t','p',':','/','/','r','/','x'],
    version := some ['1','.','2'], integrity := some ['i'], deps := [], devDeps := [], peerDeps := [], optDeps := [] }

example : ExS.env.alphabetic '/' = false ∧
    Records ExS.entry ((.npm ['x'] ['1','.','2'] ['h','t','t','p',':','/','/','r','/','x'] (some ['i']) :
      Resolution Str Str Str Str).recorded ExS.env) := by
  refine ⟨by decide, ?_⟩
  exact ⟨rfl, rfl, rfl⟩

example : Readable ExS.env (.npm ['x'] ['1','.','2'] ['h','t','t','p',':','/','/','r','/','x'] (some ['i']) :
    Resolution Str Str Str Str) :=
  .npm (u := ['h','t','t','p',':','/','/','r','/','x'])
    (.version ⟨⟨'1', rfl, by decide⟩, by decide⟩ (by decide)) ⟨_, rfl⟩ (by decide +kernel) rfl

example : ExS.entry.toPackage ExS.env = .package ['x'] (.npm none ['x'] (some (.version ['1','.','2'])))
    (.npm ['x'] ['1','.','2'] ['h','t','t','p',':','/','/','r','/','x'] (some ['i'])) := by rfl

end Oro
