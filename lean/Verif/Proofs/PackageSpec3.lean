import Verif.Proofs.PackageSpec2
/- Parsing what was printed. -/

set_option linter.unusedSectionVars false

namespace Oro
namespace PSpec

variable {V R U : Type}

/-! ### the `#…` suffix -/

theorem showComm_cases (E : SpecEnv V R U) (c : Option Str) (s : Option R) :
    showComm E c s = [] ∨ ∃ t, showComm E c s = '#' :: t := by
  cases c with
  | some c => exact Or.inr ⟨_, rfl⟩
  | none => cases s with
    | some s => exact Or.inr ⟨_, rfl⟩
    | none => exact Or.inl rfl

theorem showComm_at {E : SpecEnv V R U} {c : Option Str} {s : Option R} (h : CommShape c s) (hs : SemverPrints E s) :
    '@' ∉ showComm E c s := by
  cases c with
  | some c =>
    rcases h with h | ⟨_, t, ⟨⟩, ht⟩
    · cases h
    · have := safe_notMem (c := '@') ht (by decide)
      simp [showComm, this]
  | none => cases s with
    | some s =>
      have := (hs s rfl).2.2.2.2.2.1
      simp [showComm, kSemver, this]
    | none => simp [showComm]

theorem committish_show {E : SpecEnv V R U} {c : Option Str} {s : Option R} (h : CommShape c s)
    (hs : SemverPrints E s) : committish E (showComm E c s) = .ok [] (c, s) := by
  cases c with
  | some c =>
    rcases h with h | ⟨rfl, t, ⟨⟩, ht⟩
    · cases h
    have h1 : tagNC kSemver c = .err :=
      tagNC_err_of_notMem (c := ':') (by decide) (by decide) (by decide) (safe_notMem ht (by decide))
    simp [committish, showComm, opt, tag_hash, Res.bind, Res.map, commBody, alt, h1, ht]
  | none =>
    cases s with
    | none => simp [committish, showComm, opt, tag_hash, Res.bind, Res.map]
    | some r =>
      obtain ⟨h1, ⟨c, h2, _⟩, _⟩ := hs r rfl
      have h3 : wholeRes E.parseR (E.showR r) = .ok [] r :=
        wholeRes_ok.mpr ⟨rfl, by rintro h; rw [h] at h2; simp at h2, h1⟩
      simp [committish, showComm, opt, tag_hash, Res.bind, Res.map, commBody, alt, tagNC_append, cut, h3]

theorem takeTill1_show {p : Char → Bool} {a r : Str} (h1 : a ≠ []) (h2 : ∀ c ∈ a, p c = false)
    (h3 : ∀ c, r.head? = some c → p c = true) : takeTill1 p (a ++ r) = .ok r a :=
  takeTill1_ok.mpr ⟨h1, rfl, h2, h3⟩

theorem notMem_bne {q : Char} {a : Str} (h : q ∉ a) : ∀ c ∈ a, (c == q) = false := by
  intro c hc
  simp only [beq_eq_false_iff_ne]
  rintro rfl; exact h hc

/-! ### failing alternatives -/

theorem aliasSpec_err (E : SpecEnv V R U) {a t : Str} {x : Char} (ha : safe a = true) (hx : safeChar x = false)
    (h1 : x ≠ '@') (h2 : x ≠ '/') : aliasSpec E (a ++ x :: t) = .err := by
  have hsl : ∀ c ∈ a, (c == '/') = false := notMem_bne (safe_notMem ha (by decide))
  have hat : ∀ c ∈ a, (c == '@') = false := notMem_bne (safe_notMem ha (by decide))
  have e1 : safeTill1 (· == '/') (a ++ x :: t) = .err := safeTill1_unsafe hsl (by simpa using h2) hx
  have e2 : safeTill1 (fun c => c == '@' || c == '/') (a ++ x :: t) = .err :=
    safeTill1_unsafe (fun c hc => by simp only [hat c hc, hsl c hc, Bool.or_self]) (by simp [h1, h2]) hx
  have e3 : tagNC ['@'] (a ++ x :: t) = .err := by
    rw [tag_at]
    cases a with
    | nil => simp [h1]
    | cons c a =>
      have := hat c (by simp)
      simp only [beq_eq_false_iff_ne] at this
      simp [this]
  have e4 : aliasScope (a ++ x :: t) = .err := by
    unfold aliasScope
    rw [opt_of_err e3]
    simp [Res.bind, e1]
  unfold aliasSpec
  rw [opt_of_err e4]
  simp [Res.bind, e2]

theorem gitShorthand_err (E : SpecEnv V R U) {a t : Str} {x : Char} (h0 : hostPrefix (a ++ x :: t) = .err)
    (ha : '/' ∉ a) (hx : safeChar x = false) (h2 : x ≠ '/') : gitShorthand E (a ++ x :: t) = .err := by
  have e1 : safeTill1 (· == '/') (a ++ x :: t) = .err := safeTill1_unsafe (notMem_bne ha) (by simpa using h2) hx
  unfold gitShorthand
  rw [opt_of_err h0]
  simp [Res.bind, e1]

theorem pathSpec_err (E : SpecEnv V R U) {s : Str} (h1 : s.head? ≠ some '.')
    (h2 : ∀ c, s.head? = some c → isSep c = false) (h3 : ∀ x t, s ≠ x :: ':' :: t) : pathSpec E s = .err := by
  have e1 : relativePath s = .err := by
    unfold relativePath
    rw [tag_dot]
    cases s with
    | nil => rfl
    | cons c s =>
      have : c ≠ '.' := by simpa using h1
      simp [this, Res.bind]
  have e2 : drive E s = .err := by
    cases s with
    | nil => rfl
    | cons c s =>
      unfold drive
      split
      · rfl
      · next c' s' heq =>
        cases heq
        split
        · rw [tag_colon]
          cases s with
          | nil => rfl
          | cons d s =>
            have : d ≠ ':' := by rintro rfl; exact h3 c s rfl
            simp [this]
        · rfl
  have e3 : absolutePath E s = .err := by
    unfold absolutePath
    rw [opt_of_err e2]
    cases s with
    | nil => rfl
    | cons c s => simp [Res.bind, seps1, h2 c rfl]
  unfold pathSpec
  rw [alt_of_err e1, e3]
  rfl

theorem filePath_err (E : SpecEnv V R U) {s : Str} (h0 : tagNC kFile s = .err) (h1 : s.head? ≠ some '.')
    (h2 : ∀ c, s.head? = some c → isSep c = false) (h3 : ∀ x t, s ≠ x :: ':' :: t) : filePath E s = .err := by
  unfold filePath
  rw [opt_of_err h0]
  simp [Res.bind, pathSpec_err E h1 h2 h3]

/-! ### git -/

theorem hostPrefix_show (h : GitHost) (t : Str) : hostPrefix (h.show ++ ':' :: t) = .ok t h := by
  cases h <;> rfl

theorem gitShorthand_show {E : SpecEnv V R U} {o r : Str} {h : GitHost} {c : Option Str} {s : Option R}
    (hsh : GitShape E (.hosted o r h c s none)) (hp : SemverPrints E s) :
    gitShorthand E ((GitInfo.hosted o r h c s none : GitInfo R U).show E) = .ok [] (.hosted o r h c s none) := by
  obtain ⟨h1, h2, h3, h4⟩ := hsh
  have e1 : safeTill1 (· == '/') (o ++ '/' :: (r ++ showComm E c s)) = .ok ('/' :: (r ++ showComm E c s)) o :=
    safeTill1_ok.mpr ⟨h2, takeTill1_show h1 (notMem_bne (safe_notMem h2 (by decide))) (by simp)⟩
  have hr : ∀ x ∈ r, (x != '#') = true := by
    intro x hx
    simp only [bne_iff_ne]
    rintro rfl; exact h3 hx
  have e2 : (r ++ showComm E c s).dropWhile (· != '#') = showComm E c s := by
    rw [List.dropWhile_append_of_pos hr]
    rcases showComm_cases E c s with h | ⟨t, h⟩ <;> simp [h]
  have e3 : (r ++ showComm E c s).takeWhile (· != '#') = r := by
    rw [List.takeWhile_append_of_pos hr]
    rcases showComm_cases E c s with h | ⟨t, h⟩ <;> simp [h]
  unfold gitShorthand GitInfo.show
  rw [opt_of_ok (hostPrefix_show h _)]
  simp only [Res.bind, e1, tag_slash, if_true, e2, e3, committish_show h4 hp, Option.getD_some]

theorem gitUrl_show {E : SpecEnv V R U} {q : Str} {u : U} {c : Option Str} {s : Option R}
    (h4 : CommShape c s) (hp : SemverPrints E s) (hq : E.parseU q = some u) (hh : '#' ∉ q) (hne : q ≠ [])
    {pre : Str} (hpre : pre = kGitPlus ∨ (pre = [] ∧ kGitSlash <+: q)) :
    gitUrl E (pre ++ q ++ showComm E c s) = urlInfo E u (c, s) [] := by
  have e1 : takeTill1 (· == '#') (q ++ showComm E c s) = .ok (showComm E c s) q :=
    takeTill1_show hne (notMem_bne hh) (by
      intro x hx
      rcases showComm_cases E c s with h | ⟨t, h⟩
      · rw [h] at hx; cases hx
      · rw [h] at hx; simp at hx; simp [← hx])
  have e2 : alt (tagNC kGitPlus) (fun s => (tagNC kGitSlash s).bind fun _ _ => .ok s ())
      (pre ++ q ++ showComm E c s) = .ok (q ++ showComm E c s) () := by
    rcases hpre with rfl | ⟨rfl, t, ht⟩
    · rw [List.append_assoc]
      exact alt_of_ok (tagNC_append _ _)
    · rw [List.nil_append, ← ht, List.append_assoc]
      have : tagNC kGitPlus (kGitSlash ++ (t ++ showComm E c s)) = .err := by rfl
      rw [alt_of_err this]
      simp [tagNC_append, Res.bind]
  unfold gitUrl
  rw [e2]
  simp only [Res.bind, e1, hq, committish_show h4 hp]

/-- a printed URL or ssh form: starts with `git+` or `git://` -/
def GitText (s : Str) : Prop := ∃ t, s = kGitPlus ++ t ∨ s = kGitSlash ++ t

theorem gitText_errs (E : SpecEnv V R U) {s : Str} (h : GitText s) :
    aliasSpec E s = .err ∧ filePath E s = .err ∧ gitShorthand E s = .err := by
  obtain ⟨t, rfl | rfl⟩ := h
  · refine ⟨?_, ?_, ?_⟩
    · exact aliasSpec_err E (a := ['g','i','t']) (x := '+') (t := t) (by decide) (by decide) (by decide) (by decide)
    · exact filePath_err E (by rfl) (by simp [kGitPlus]) (by intro c hc; simp [kGitPlus] at hc; subst hc; rfl)
        (by intro x t'; simp [kGitPlus])
    · exact gitShorthand_err E (a := ['g','i','t']) (x := '+') (t := t) (by rfl) (by decide) (by decide) (by decide)
  · refine ⟨?_, ?_, ?_⟩
    · exact aliasSpec_err E (a := ['g','i','t']) (x := ':') (t := '/' :: '/' :: t) (by decide) (by decide) (by decide) (by decide)
    · exact filePath_err E (by rfl) (by simp [kGitSlash]) (by intro c hc; simp [kGitSlash] at hc; subst hc; rfl)
        (by intro x t'; simp [kGitSlash])
    · exact gitShorthand_err E (a := ['g','i','t']) (x := ':') (t := '/' :: '/' :: t) (by rfl) (by decide) (by decide) (by decide)

theorem gitText_host (E : SpecEnv V R U) (h : GitHost) (t : Str) :
    aliasSpec E (h.show ++ ':' :: t) = .err ∧ filePath E (h.show ++ ':' :: t) = .err := by
  refine ⟨?_, ?_⟩
  · exact aliasSpec_err E (a := h.show) (x := ':') (t := t) (by cases h <;> decide) (by decide) (by decide) (by decide)
  · cases h <;> exact filePath_err E (by rfl) (by simp [GitHost.show])
      (by intro c hc; simp [GitHost.show] at hc; subst hc; rfl) (by intro x t'; simp [GitHost.show])

theorem scpUser_none {s : Str} (h : s.head? = some '@' ∨ '@' ∉ s) : scpUser s = .err := by
  rcases h with h | h
  · cases s with
    | nil => rfl
    | cons c s =>
      simp at h; subst h
      rfl
  · by_cases hne : s = []
    · subst hne; rfl
    · have : takeTill1 (· == '@') (s ++ []) = .ok [] s := takeTill1_show hne (notMem_bne h) (by simp)
      rw [List.append_nil] at this
      simp [scpUser, this, Res.bind, tag_at]

theorem gitScp_show {E : SpecEnv V R U} {user : Option Str} {host : Str} {path : Option Str} {c : Option Str}
    {s : Option R} (hsh : ScpShape user host path) (h4 : CommShape c s) (hp : SemverPrints E s) :
    gitScp E (kGitPlus ++ kSsh ++ scpRaw user host path ++ showComm E c s) =
      .ok [] (scpInfo user host path (c, s)) := by
  obtain ⟨hu, ⟨hh1, hh2, hh3⟩, hpath, hno⟩ := hsh
  have hcat := showComm_at h4 hp
  -- path and suffix
  let tail : Str := scpTail path ++ showComm E c s
  have e3 : opt scpPath tail = .ok (showComm E c s) path := by
    cases path with
    | some p =>
      obtain ⟨hp1, hp2⟩ := hpath p rfl
      have : takeTill1 (· == '#') (p ++ showComm E c s) = .ok (showComm E c s) p :=
        takeTill1_show hp1 (notMem_bne hp2) (by
          intro x hx
          rcases showComm_cases E c s with h | ⟨t, h⟩
          · rw [h] at hx; cases hx
          · rw [h] at hx; simp at hx; simp [← hx])
      apply opt_of_ok
      simp [tail, scpTail, scpPath, tag_colon, Res.bind, this]
    | none =>
      apply opt_of_err
      simp only [tail, scpTail, List.nil_append, scpPath, tag_colon]
      rcases showComm_cases E c s with h | ⟨t, h⟩ <;> simp [h, Res.bind]
  have e2 : takeTill1 (fun c => c == ':' || c == '#') (host ++ tail) = .ok tail host := by
    apply takeTill1_show hh1
    · intro x hx
      simp only [notMem_bne hh2 x hx, notMem_bne hh3 x hx, Bool.or_self]
    · intro x hx
      cases path with
      | some p => simp [tail, scpTail] at hx; simp [← hx]
      | none =>
        simp [tail, scpTail] at hx
        rcases showComm_cases E c s with h | ⟨t, h⟩
        · rw [h] at hx; cases hx
        · rw [h] at hx; simp at hx; simp [← hx]
  have e1 : opt scpUser (scpRaw user host path ++ showComm E c s) = .ok (host ++ tail) user := by
    cases user with
    | some u =>
      obtain ⟨hu1, hu2⟩ := hu u rfl
      have : takeTill1 (· == '@') (u ++ '@' :: (host ++ tail)) = .ok ('@' :: (host ++ tail)) u :=
        takeTill1_show hu1 (notMem_bne hu2) (by simp)
      apply opt_of_ok
      have heq : scpRaw (some u) host path ++ showComm E c s = u ++ '@' :: (host ++ tail) := by
        simp [scpRaw, tail]
      rw [heq]
      simp [scpUser, this, Res.bind, tag_at]
    | none =>
      have heq : scpRaw none host path ++ showComm E c s = host ++ tail := by
        simp [scpRaw, tail]
      rw [heq]
      apply opt_of_err
      apply scpUser_none
      rcases hno rfl with h | ⟨h, h'⟩
      · left
        cases host with
        | nil => cases h
        | cons c host => simpa using h
      · right
        simp only [tail, List.mem_append, not_or]
        refine ⟨h, ?_, hcat⟩
        cases path with
        | none => simp [scpTail]
        | some p => simp [scpTail, h' p rfl]
  unfold gitScp
  rw [List.append_assoc, List.append_assoc, opt_of_ok (tagNC_append _ _)]
  simp only [Res.bind, tagNC_append, e1, e2, e3, committish_show h4 hp]

theorem gitInfo_show {E : SpecEnv V R U} {i : GitInfo R U} (hs : GitShape E i) (hp : GitPrints E i) :
    gitSpec E (i.show E) = .ok [] (.git i) ∧ filePath E (i.show E) = .err ∧ aliasSpec E (i.show E) = .err := by
  cases i with
  | hosted o r h c s q =>
    cases q with
    | none =>
      have e := gitShorthand_show hs hp
      obtain ⟨h1, h2⟩ := gitText_host E h (o ++ '/' :: (r ++ showComm E c s))
      refine ⟨?_, h2, h1⟩
      unfold gitSpec
      rw [alt_of_ok e]; rfl
    | some q =>
      obtain ⟨hsem, u, n, ch, p, ⟨hu1, hu2, hu3⟩, rfl, hh, hpa, hsp, rfl⟩ := hp
      have hi : urlInfo E u (c, s) [] = .ok [] (.hosted o (repoName n) h c s (some (E.showU u))) := by
        simp [urlInfo, hh, hpa, hsp]
      have hpre : (if kGitSlash.isPrefixOf (E.showU u) then ([] : Str) else kGitPlus) = kGitPlus ∨
          ((if kGitSlash.isPrefixOf (E.showU u) then ([] : Str) else kGitPlus) = [] ∧ kGitSlash <+: E.showU u) := by
        by_cases hx : kGitSlash.isPrefixOf (E.showU u) = true
        · rw [if_pos hx]; exact Or.inr ⟨rfl, List.isPrefixOf_iff_prefix.mp hx⟩
        · rw [if_neg hx]; exact Or.inl rfl
      have e := gitUrl_show (E := E) hs hsem hu1 hu2 hu3 hpre
      have htext : GitText ((GitInfo.hosted o (repoName n) h c s (some (E.showU u)) : GitInfo R U).show E) := by
        simp only [GitInfo.show]
        rcases hpre with h | ⟨h, t, ht⟩
        · rw [h]; exact ⟨_, Or.inl (List.append_assoc _ _ _)⟩
        · rw [h, ← ht]; exact ⟨t ++ showComm E c s, Or.inr (by simp)⟩
      obtain ⟨h1, h2, h3⟩ := gitText_errs E htext
      refine ⟨?_, h2, h1⟩
      unfold gitSpec
      rw [alt_of_err h3]
      simp only [GitInfo.show]
      rw [alt_of_ok (e.trans hi)]; rfl
  | url u c s =>
    obtain ⟨hsem, ⟨hu1, hu2, hu3⟩, hsch⟩ := hp
    obtain ⟨hcs, hi⟩ := hs
    have hpre : (if E.scheme u ≠ kGit then kGitPlus else ([] : Str)) = kGitPlus ∨
        ((if E.scheme u ≠ kGit then kGitPlus else ([] : Str)) = [] ∧ kGitSlash <+: E.showU u) := by
      by_cases hx : E.scheme u = kGit
      · rw [if_neg (by simp [hx])]; exact Or.inr ⟨rfl, hsch hx⟩
      · rw [if_pos hx]; exact Or.inl rfl
    have e := gitUrl_show (E := E) hcs hsem hu1 hu2 hu3 hpre
    have htext : GitText ((GitInfo.url u c s : GitInfo R U).show E) := by
      simp only [GitInfo.show]
      rcases hpre with h | ⟨h, t, ht⟩
      · rw [h]; exact ⟨_, Or.inl (List.append_assoc _ _ _)⟩
      · rw [h, ← ht]; exact ⟨t ++ showComm E c s, Or.inr (by simp)⟩
    obtain ⟨h1, h2, h3⟩ := gitText_errs E htext
    refine ⟨?_, h2, h1⟩
    unfold gitSpec
    rw [alt_of_err h3]
    unfold GitInfo.show
    rw [alt_of_ok (e.trans hi)]; rfl
  | ssh t c s =>
    obtain ⟨hsem, hnone⟩ := hp
    obtain ⟨hcs, user, host, path, hshape, rfl, hi⟩ := hs
    have htext : GitText ((GitInfo.ssh (scpRaw user host path) c s : GitInfo R U).show E) :=
      ⟨kSsh ++ scpRaw user host path ++ showComm E c s, Or.inl (by simp [GitInfo.show])⟩
    obtain ⟨h1, h2, h3⟩ := gitText_errs E htext
    refine ⟨?_, h2, h1⟩
    unfold gitSpec
    rw [alt_of_err h3]
    have hurl : gitUrl E ((GitInfo.ssh (scpRaw user host path) c s : GitInfo R U).show E) = .err := by
      have e1 : takeTill1 (· == '#') (kSsh ++ (scpRaw user host path ++ showComm E c s)) =
          .ok ((scpRaw user host path ++ showComm E c s).dropWhile (· != '#'))
            (kSsh ++ (scpRaw user host path).takeWhile (· != '#')) := by
        have htw : (scpRaw user host path ++ showComm E c s).takeWhile (· != '#') =
            (scpRaw user host path).takeWhile (· != '#') := by
          generalize scpRaw user host path = a
          induction a with
          | nil => rcases showComm_cases E c s with h | ⟨t, h⟩ <;> simp [h]
          | cons x a ih =>
            simp only [List.cons_append, List.takeWhile_cons]
            split
            · rw [ih]
            · rfl
        rw [← htw]
        generalize scpRaw user host path ++ showComm E c s = z
        have hz : z = z.takeWhile (· != '#') ++ z.dropWhile (· != '#') := List.takeWhile_append_dropWhile.symm
        refine takeTill1_ok.mpr ⟨by simp [kSsh], ?_, ?_, ?_⟩
        · rw [List.append_assoc, ← hz]
        · intro x hx
          rcases List.mem_append.mp hx with hx | hx
          · exact notMem_bne (show '#' ∉ kSsh by decide) x hx
          · have := List.all_eq_true.mp (List.all_takeWhile (p := fun c : Char => c != '#') (l := z)) x hx
            simpa using this
        · intro x hx
          have := List.head?_dropWhile_not (fun c : Char => c != '#') z
          rw [hx] at this
          simpa using this
      simp only [GitInfo.show]
      unfold gitUrl
      rw [List.append_assoc, List.append_assoc, alt_of_ok (tagNC_append _ _)]
      simp only [Res.bind, e1, hnone]
    rw [alt_of_err hurl]
    have := gitScp_show (E := E) hshape hcs hsem
    rw [hi] at this
    unfold GitInfo.show
    rw [this]; rfl

/-! ### registry specifiers -/

theorem versionReq_show {E : SpecEnv V R U} {q : VersionSpec V R}
    (ht : ∀ t, q = .tag t → t ≠ [] ∧ safe t = true ∧ E.parseV t = none ∧ E.parseR t = none)
    (hp : ReqPrints E (some q)) : versionReq E (q.show E) = .ok [] q := by
  cases q with
  | tag t =>
    obtain ⟨h1, h2, h3, h4⟩ := ht t rfl
    have e1 : wholeRes E.parseV t = .err := wholeRes_err.mpr (Or.inr h3)
    have e2 : wholeRes E.parseR t = .err := wholeRes_err.mpr (Or.inr h4)
    simp [versionReq, VersionSpec.show, alt, e1, e2, Res.map, Res.bind, safeWhole_eq, h1, h2]
  | version v =>
    obtain ⟨h1, ⟨c, h2, _⟩, _⟩ := hp
    have e1 : wholeRes E.parseV (E.showV v) = .ok [] v :=
      wholeRes_ok.mpr ⟨rfl, by rintro h; rw [h] at h2; simp at h2, h1⟩
    simp [versionReq, VersionSpec.show, alt, e1, Res.map, Res.bind]
  | range r =>
    obtain ⟨⟨h1, ⟨c, h2, _⟩, _⟩, h3⟩ := hp
    have e1 : wholeRes E.parseV (E.showR r) = .err := wholeRes_err.mpr (Or.inr h3)
    have e2 : wholeRes E.parseR (E.showR r) = .ok [] r :=
      wholeRes_ok.mpr ⟨rfl, by rintro h; rw [h] at h2; simp at h2, h1⟩
    simp [versionReq, VersionSpec.show, alt, e1, e2, Res.map, Res.bind]

theorem showReq_head (E : SpecEnv V R U) (req : Option (VersionSpec V R)) (c : Char)
    (h : (showReq E req).head? = some c) : c = '@' := by
  cases req <;> simp [showReq] at h
  exact h.symm

theorem nameTill {E : SpecEnv V R U} {n : Str} (req : Option (VersionSpec V R)) (h1 : n ≠ []) (h2 : safe n = true) :
    safeTill1 (fun c => c == '@' || c == '/') (n ++ showReq E req) = .ok (showReq E req) n :=
  safeTill1_ok.mpr ⟨h2, takeTill1_show h1
    (fun c hc => by
      simp only [notMem_bne (safe_notMem (c := '@') h2 (by decide)) c hc, notMem_bne (safe_notMem (c := '/') h2 (by decide)) c hc, Bool.or_self])
    (fun c hc => by simp [showReq_head E req c hc])⟩

theorem npmSpec_show {E : SpecEnv V R U} {sc : Option Str} {m : Str} {req : Option (VersionSpec V R)}
    (hs : NpmShape E sc m req) (hp : ReqPrints E req) : npmSpec E (m ++ showReq E req) = .ok [] (.npm sc m req) := by
  obtain ⟨n, rfl, h1, h2, h3, h4⟩ := hs
  have e1 : opt npmScope (fullName sc n ++ showReq E req) = .ok (n ++ showReq E req) sc := by
    cases sc with
    | none =>
      apply opt_of_err
      have : n.head? ≠ some '@' := by
        intro h
        exact safe_notMem h2 (c := '@') (by decide) (List.mem_of_head? h)
      cases n with
      | nil => exact absurd rfl h1
      | cons c n =>
        have hc : c ≠ '@' := by simpa using this
        unfold npmScope
        simp only [fullName, List.cons_append]
        split
        · next h => cases h; exact absurd rfl hc
        · rfl
    | some x =>
      obtain ⟨hx1, hx2⟩ := h3 x rfl
      apply opt_of_ok
      have : safeTill1 (· == '/') (x ++ '/' :: (n ++ showReq E req)) = .ok ('/' :: (n ++ showReq E req)) x :=
        safeTill1_ok.mpr ⟨hx2, takeTill1_show hx1 (notMem_bne (safe_notMem hx2 (by decide))) (by simp)⟩
      simp [npmScope, fullName, Res.bind, this]
  have e3 : opt (fun t => (tagNC ['@'] t).bind fun t _ => cut (versionReq E) t) (showReq E req) = .ok [] req := by
    cases req with
    | none =>
      apply opt_of_err
      simp [showReq, tag_at, Res.bind]
    | some q =>
      apply opt_of_ok
      have := versionReq_show (E := E) (q := q) (fun t ht => h4 t (by rw [ht])) hp
      simp [showReq, tag_at, Res.bind, cut, this]
  unfold npmSpec
  rw [e1]
  simp only [ok_bind, nameTill req h1 h2, e3]

theorem hostPrefix_soft (t : Str) : (hostPrefix t).Soft := by
  unfold hostPrefix
  have hm : ∀ (k : Str) (g : GitHost), ((tagNC k t).map fun _ => g).Soft := fun k g =>
    bind_soft (tagNC_soft _ _) fun _ _ => ok_soft _ _
  exact bind_soft (alt_soft (hm _ _) (alt_soft (hm _ _) (alt_soft (hm _ _) (hm _ _)))) fun _ _ =>
    bind_soft (tagNC_soft _ _) fun _ _ => ok_soft _ _

theorem hostPrefix_err {t : Str} (h3 : ':' ∉ t) : hostPrefix t = .err := by
  refine (hostPrefix_soft t).eq_err fun r g hh => ?_
  unfold hostPrefix at hh
  obtain ⟨s1, g, hg, hh⟩ := bind_ok.mp hh
  obtain ⟨s2, _, hc, _⟩ := bind_ok.mp hh
  have hsub : ∀ {k : Str} {g' : GitHost}, (tagNC k t).map (fun _ => g') = .ok s1 g → ∃ a, t = a ++ s1 := by
    intro k g' h
    obtain ⟨_, h, _⟩ := map_ok.mp h
    rcases tagNC_cases k t with h' | ⟨a, r, h', ht, _⟩
    · rw [h'] at h; cases h
    · rw [h'] at h; cases h; exact ⟨a, ht⟩
  obtain ⟨a, ha⟩ : ∃ a, t = a ++ s1 := by
    rcases alt_ok.mp hg with h | ⟨_, h⟩
    · exact hsub h
    rcases alt_ok.mp h with h | ⟨_, h⟩
    · exact hsub h
    rcases alt_ok.mp h with h | ⟨_, h⟩
    · exact hsub h
    · exact hsub h
  have : tagNC [':'] s1 = .err := tagNC_err_of_notMem (c := ':') (by simp) (by decide) (by decide)
    (fun h => h3 (by rw [ha]; exact List.mem_append_right _ h))
  rw [this] at hc; cases hc

/-- text after `name@` that reads neither as a path, nor as git, nor has an `npm:` prefix -/
theorem prefixedSpec_err (E : SpecEnv V R U) {t : Str} (h0 : t.head? ≠ some '.') (h1 : '/' ∉ t) (h2 : '\\' ∉ t)
    (h3 : ':' ∉ t) (h4 : tagNC kGitPlus t = .err) : prefixedSpec E t = .err := by
  have tagc : ∀ {k : Str}, ':' ∈ k → tagNC k t = .err := fun hk =>
    tagNC_err_of_notMem hk (by decide) (by decide) h3
  have e1 : filePath E t = .err := filePath_err E (tagc (by decide)) h0
    (fun c hc => by
      have := List.mem_of_head? hc
      simp only [isSep, Bool.or_eq_false_iff, beq_eq_false_iff_ne]
      exact ⟨fun h => h1 (h ▸ this), fun h => h2 (h ▸ this)⟩)
    (fun x t' h => h3 (by simp [h]))
  have eh : hostPrefix t = .err := hostPrefix_err h3
  have e2 : gitShorthand E t = .err := by
    unfold gitShorthand
    rw [opt_of_err eh]
    simp only [Res.bind]
    by_cases hne : t = []
    · subst hne; rfl
    · have : takeTill1 (· == '/') (t ++ []) = .ok [] t := takeTill1_show hne (notMem_bne h1) (by simp)
      rw [List.append_nil] at this
      simp only [safeTill1, this, Res.bind]
      by_cases hsafe : safe t = true
      · rw [if_pos hsafe]; rfl
      · rw [if_neg hsafe]
  have e3 : gitUrl E t = .err := by
    unfold gitUrl
    rw [alt_of_err h4, tagc (by decide)]
    rfl
  have e4 : gitScp E t = .err := by
    unfold gitScp
    rw [opt_of_err h4]
    simp only [Res.bind, tagc (k := kSsh) (by decide)]
  have e5 : gitSpec E t = .err := by
    unfold gitSpec
    rw [alt_of_err e2, alt_of_err e3, e4]; rfl
  unfold prefixedSpec
  rw [alt_of_err e1, alt_of_err e5]
  simp only [Res.bind, tagc (k := kNpm) (by decide)]

/-! ### the front of an alias -/

theorem aliasSpec_front {E : SpecEnv V R U} {sc : Option Str} {n r : Str} (h1 : n ≠ []) (h2 : safe n = true)
    (h3 : ∀ x, sc = some x → ∃ y, (x = y ∨ x = '@' :: y) ∧ y ≠ [] ∧ safe y = true)
    (hr : ∀ c, r.head? = some c → c = '@') :
    aliasSpec E (aliasName sc n ++ r) =
      (tagNC ['@'] r).bind fun s _ => (prefixedSpec E s).map fun a => .alias (aliasName sc n) a := by
  have hn : safeTill1 (fun c => c == '@' || c == '/') (n ++ r) = .ok r n :=
    safeTill1_ok.mpr ⟨h2, takeTill1_show h1
      (fun c hc => by simp only [notMem_bne (safe_notMem (c := '@') h2 (by decide)) c hc,
        notMem_bne (safe_notMem (c := '/') h2 (by decide)) c hc, Bool.or_self])
      (fun c hc => by simp [hr c hc])⟩
  have noat : ∀ {y z : Str}, y ≠ [] → safe y = true → tagNC ['@'] (y ++ z) = .err := by
    intro y z hy hs
    cases y with
    | nil => exact absurd rfl hy
    | cons c y =>
      have : c ≠ '@' := by rintro rfl; exact safe_notMem hs (c := '@') (by decide) (by simp)
      rw [tag_at]; simp [this]
  have e1 : opt aliasScope (aliasName sc n ++ r) = .ok (n ++ r) sc := by
    cases sc with
    | none =>
      apply opt_of_err
      show aliasScope (n ++ r) = .err
      unfold aliasScope
      rw [opt_of_err (noat h1 h2), ok_bind]
      cases r with
      | nil =>
        have : safeTill1 (· == '/') (n ++ []) = .ok [] n :=
          safeTill1_ok.mpr ⟨h2, takeTill1_show h1 (notMem_bne (safe_notMem h2 (by decide))) (by simp)⟩
        rw [this]; rfl
      | cons c r =>
        have := hr c rfl
        subst this
        rw [safeTill1_unsafe (notMem_bne (safe_notMem h2 (by decide))) (by decide) (by decide)]
        rfl
    | some x =>
      apply opt_of_ok
      obtain ⟨y, hx, hy, hsy⟩ := h3 x rfl
      have e : safeTill1 (· == '/') (y ++ '/' :: (n ++ r)) = .ok ('/' :: (n ++ r)) y :=
        safeTill1_ok.mpr ⟨hsy, takeTill1_show hy (notMem_bne (safe_notMem hsy (by decide))) (by simp)⟩
      rcases hx with rfl | rfl
      · show aliasScope ((x ++ '/' :: n) ++ r) = _
        unfold aliasScope
        rw [List.append_assoc, opt_of_err (noat hy hsy), ok_bind, List.cons_append, e, ok_bind, tag_slash]
        rfl
      · show aliasScope (('@' :: y ++ '/' :: n) ++ r) = _
        unfold aliasScope
        have : tagNC ['@'] ('@' :: y ++ '/' :: n ++ r) = .ok (y ++ '/' :: (n ++ r)) () := by
          rw [tag_at]; simp
        rw [opt_of_ok this, ok_bind, e, ok_bind, tag_slash]
        rfl
  unfold aliasSpec
  rw [e1, ok_bind, hn, ok_bind]

theorem aliasSpec_err_of_no_at (E : SpecEnv V R U) {s : Str} (h : '@' ∉ s) : aliasSpec E s = .err := by
  have hsoft : (aliasScope s).Soft := bind_soft (opt_soft (tagNC_soft _ _)) fun _ _ =>
    bind_soft (safeTill1_soft _ _) fun _ _ => bind_soft (tagNC_soft _ _) fun _ _ => ok_soft _ _
  have hsuf : ∀ r o, opt aliasScope s = .ok r o → ∃ a, s = a ++ r := by
    intro r o ho
    rcases opt_ok.mp ho with ⟨x, rfl, hx⟩ | ⟨_, rfl, _⟩
    · unfold aliasScope at hx
      obtain ⟨s1, _, h1, hx⟩ := bind_ok.mp hx
      obtain ⟨s2, sc, h2, hx⟩ := bind_ok.mp hx
      obtain ⟨s3, _, h3, hx⟩ := bind_ok.mp hx
      cases hx
      have a1 : ∃ a, s = a ++ s1 := by
        rcases opt_ok.mp h1 with ⟨_, _, h⟩ | ⟨_, rfl, _⟩
        · rcases tagNC_cases ['@'] s with h' | ⟨a, r, h', ht, _⟩
          · rw [h'] at h; cases h
          · rw [h'] at h; cases h; exact ⟨a, ht⟩
        · exact ⟨[], rfl⟩
      have a2 : s1 = sc ++ s2 := (takeTill1_ok.mp (safeTill1_ok.mp h2).2).2.1
      have a3 : ∃ a, s2 = a ++ r := by
        rcases tagNC_cases ['/'] s2 with h' | ⟨a, r, h', ht, _⟩
        · rw [h'] at h3; cases h3
        · rw [h'] at h3; cases h3; exact ⟨a, ht⟩
      obtain ⟨a, rfl⟩ := a1
      obtain ⟨b, rfl⟩ := a3
      subst a2
      exact ⟨a ++ (sc ++ b), by simp⟩
    · exact ⟨[], rfl⟩
  unfold aliasSpec
  cases ho : opt aliasScope s with
  | fail => exact absurd ho (opt_soft hsoft).1
  | panic => exact absurd ho (opt_soft hsoft).2
  | err => rfl
  | ok r o =>
    obtain ⟨a, ha⟩ := hsuf r o ho
    rw [ok_bind]
    cases hn : safeTill1 (fun c => c == '@' || c == '/') r with
    | fail => exact absurd hn (safeTill1_soft _ _).1
    | panic => exact absurd hn (safeTill1_soft _ _).2
    | err => rfl
    | ok r' n =>
      have : r = n ++ r' := (takeTill1_ok.mp (safeTill1_ok.mp hn).2).2.1
      have hna : '@' ∉ r' := fun hm => h (by rw [ha, this]; simp [hm])
      rw [ok_bind, tagNC_err_of_notMem (c := '@') (by simp) (by decide) (by decide) hna]
      rfl

theorem file_of_path {E : SpecEnv V R U} {p : Str} (h : pathSpec E p = .ok [] (.dir p)) :
    filePath E p = .ok [] (.dir p) := by
  have : tagNC kFile p = .err := by
    rcases tagNC_cases kFile p with h' | ⟨a, r, _, rfl, hl, hm⟩
    · exact h'
    · exfalso
      match a, hl, hm with
      | [c0, c1, c2, c3, c4], _, hm =>
        simp [kFile] at hm
        obtain ⟨m0, m1, _⟩ := hm
        have := pathSpec_err E (s := [c0, c1, c2, c3, c4] ++ r)
          (by simp; rintro rfl; revert m0; decide)
          (by
            intro c hc
            simp at hc; subst hc
            simp only [isSep, Bool.or_eq_false_iff, beq_eq_false_iff_ne]
            exact ⟨by rintro rfl; revert m0; decide, by rintro rfl; revert m0; decide⟩)
          (by intro x t hx; simp at hx; have := hx.2.1; subst this; revert m1; decide)
        rw [this] at h; cases h
  unfold filePath
  rw [opt_of_err this, ok_bind, h]

theorem gitPlus_err {n r : Str} (h2 : safe n = true) (hr : ∀ c, r.head? = some c → c = '@') :
    tagNC kGitPlus (n ++ r) = .err := by
  rcases tagNC_cases kGitPlus (n ++ r) with h' | ⟨a, r', _, ha, hl, hm⟩
  · exact h'
  · exfalso
    have hplus : '+' ∈ a := by
      have : '+' ∈ a.map Char.toLower := by rw [hm]; decide
      obtain ⟨d, hd, hdc⟩ := List.mem_map.mp this
      exact (toLower_eq_self_of (by decide) hdc) ▸ hd
    have hnoat : '@' ∉ a := by
      intro hat
      have : Char.toLower '@' ∈ kGitPlus.map Char.toLower := hm ▸ List.mem_map_of_mem hat
      revert this; decide
    rcases List.append_eq_append_iff.mp ha with ⟨b, rfl, hb⟩ | ⟨b, rfl, _⟩
    · cases b with
      | nil => exact safe_notMem h2 (c := '+') (by decide) (by simpa using hplus)
      | cons c b =>
        have := hr c (by rw [hb]; rfl)
        subst this
        exact hnoat (by simp)
    · exact safe_notMem h2 (c := '+') (by decide) (List.mem_append_left _ hplus)

theorem not_g {c : Char} (h : c ≠ 'g') (h' : c ≠ 'G') : 'g'.toLower ≠ c.toLower := by
  intro hc
  have hg : 'g'.toLower = 'g' := by decide
  rw [hg] at hc
  unfold Char.toLower at hc
  split at hc
  · next hu =>
    have hv := congrArg Char.val hc
    have h1 : c.val = 'G'.val := by
      simp only at hv
      have : c.val + 32 = 'g'.val := by simpa using hv.symm
      have h2 : c.val = 'g'.val - 32 := by rw [← this]; simp
      rw [h2]; decide
    exact h' (Char.ext h1)
  · exact h hc.symm

theorem req_text {E : SpecEnv V R U} {q : VersionSpec V R}
    (ht : ∀ t, q = .tag t → t ≠ [] ∧ safe t = true ∧ E.parseV t = none ∧ E.parseR t = none)
    (hp : ReqPrints E (some q)) :
    '/' ∉ q.show E ∧ '\\' ∉ q.show E ∧ ':' ∉ q.show E ∧ tagNC kGitPlus (q.show E) = .err ∧
      ((∀ t, q = .tag t → t.head? ≠ some '.') → (q.show E).head? ≠ some '.') := by
  have text : ∀ {t : Str}, VersionText t → '/' ∉ t ∧ '\\' ∉ t ∧ ':' ∉ t ∧ tagNC kGitPlus t = .err ∧ t.head? ≠ some '.' := by
    rintro t ⟨⟨c, h1, h2, h3, h3'⟩, h4, h5, h6, _, _⟩
    refine ⟨h4, h5, h6, ?_, by rw [h1]; simpa using h2⟩
    cases t with
    | nil => rfl
    | cons d t =>
      simp at h1; subst h1
      simp only [kGitPlus, tagNC, if_neg (not_g h3 h3')]
  cases q with
  | tag t =>
    obtain ⟨_, h2, _⟩ := ht t rfl
    exact ⟨safe_notMem h2 (by decide), safe_notMem h2 (by decide), safe_notMem h2 (by decide),
      tagNC_err_of_notMem (c := '+') (by decide) (by decide) (by decide) (safe_notMem h2 (by decide)),
      fun h => h t rfl⟩
  | version v => obtain ⟨a, b, c, d, e⟩ := text hp.2; exact ⟨a, b, c, d, fun _ => e⟩
  | range r => obtain ⟨a, b, c, d, e⟩ := text hp.1.2; exact ⟨a, b, c, d, fun _ => e⟩

/-! ### the round trip -/

theorem npm_prefixed (E : SpecEnv V R U) (t : Str) :
    prefixedSpec E (kNpm ++ t) = npmSpec E t := by
  have e1 : filePath E (kNpm ++ t) = .err := filePath_err E (by rfl) (by simp [kNpm])
    (by intro c hc; simp [kNpm] at hc; subst hc; rfl) (by intro x t'; simp [kNpm])
  have e2 : gitShorthand E (kNpm ++ t) = .err :=
    gitShorthand_err E (a := ['n','p','m']) (x := ':') (t := t) (by rfl) (by decide) (by decide) (by decide)
  have e3 : gitUrl E (kNpm ++ t) = .err := by rfl
  have e4 : gitScp E (kNpm ++ t) = .err := by rfl
  have e5 : gitSpec E (kNpm ++ t) = .err := by
    unfold gitSpec; rw [alt_of_err e2, alt_of_err e3, e4]; rfl
  unfold prefixedSpec
  rw [alt_of_err e1, alt_of_err e5, tagNC_append, ok_bind]

theorem inner_show {E : SpecEnv V R U} {m : Str} {a : PackageSpec V R U} (hs : InnerShape E a)
    (hp : PrintsBack E (.alias m a)) :
    ∃ t, (PackageSpec.alias m a).show E = m ++ '@' :: t ∧ prefixedSpec E t = .ok [] a := by
  cases a with
  | dir p =>
    refine ⟨p, by simp [PackageSpec.show], ?_⟩
    unfold prefixedSpec
    rw [alt_of_ok (file_of_path hs)]
  | alias n s => exact hs.elim
  | npm sc n req =>
    refine ⟨kNpm ++ (n ++ showReq E req), by simp [PackageSpec.show], ?_⟩
    rw [npm_prefixed]
    exact npmSpec_show hs hp
  | git i =>
    obtain ⟨h1, h2, h3⟩ := gitInfo_show hs hp
    refine ⟨i.show E, by simp [PackageSpec.show], ?_⟩
    unfold prefixedSpec
    rw [alt_of_err h2, alt_of_ok h1]

theorem packageSpec_show {E : SpecEnv V R U} {a : PackageSpec V R U} (hs : Shape E a) (hp : PrintsBack E a) :
    packageSpec E (a.show E) = .ok [] a := by
  cases a with
  | dir p =>
    show packageSpec E p = _
    unfold packageSpec
    rw [alt_of_err (aliasSpec_err_of_no_at E hp), alt_of_ok (file_of_path hs)]
  | git i =>
    obtain ⟨h1, h2, h3⟩ := gitInfo_show hs hp
    show packageSpec E (i.show E) = _
    unfold packageSpec
    rw [alt_of_err h3, alt_of_err h2, alt_of_ok h1]
  | alias m a =>
    obtain ⟨⟨sc, n, rfl, hn1, hn2, hsc⟩, hi⟩ := hs
    obtain ⟨t, ht, hpre⟩ := inner_show hi hp
    rw [ht]
    unfold packageSpec
    apply alt_of_ok
    rw [aliasSpec_front hn1 hn2 hsc (by simp), tag_at]
    simp [hpre, Res.map]
  | npm sc m req =>
    have hs' := hs
    obtain ⟨n, rfl, h1, h2, h3, h4⟩ := hs
    obtain ⟨hp1, hp2, hp3⟩ := hp
    show packageSpec E (fullName sc n ++ showReq E req) = _
    have hfull : fullName sc n = aliasName (sc.map ('@' :: ·)) n := by cases sc <;> rfl
    have hreq : '/' ∉ showReq E req ∧ ':' ∉ showReq E req := by
      cases req with
      | none => simp [showReq]
      | some q =>
        obtain ⟨a, _, b, _, _⟩ := req_text (E := E) (q := q) (fun t ht => h4 t (by rw [ht])) hp3
        simp [showReq, a, b]
    have e1 : aliasSpec E (fullName sc n ++ showReq E req) = .err := by
      rw [hfull, aliasSpec_front h1 h2 (by
        intro x hx
        cases sc with
        | none => cases hx
        | some y => cases hx; obtain ⟨a, b⟩ := h3 y rfl; exact ⟨y, Or.inr rfl, a, b⟩) (showReq_head E req)]
      cases req with
      | none => simp [showReq, tag_at]
      | some q =>
        obtain ⟨r1, r2, r3, r4, r5⟩ := req_text (E := E) (q := q) (fun t ht => h4 t (by rw [ht])) hp3
        have := prefixedSpec_err E (r5 fun t ht => hp2 t (by rw [ht])) r1 r2 r3 r4
        simp [showReq, tag_at, this, Res.map]
    have hcol : ':' ∉ fullName sc n ++ showReq E req := by
      have hn := safe_notMem h2 (c := ':') (by decide)
      cases sc with
      | none => simp [fullName, hn, hreq.2]
      | some x => simp [fullName, hn, hreq.2, safe_notMem (h3 x rfl).2 (c := ':') (by decide)]
    have tagc : ∀ {k : Str}, ':' ∈ k → tagNC k (fullName sc n ++ showReq E req) = .err := fun hk =>
      tagNC_err_of_notMem hk (by decide) (by decide) hcol
    have hhead : ∀ c, (fullName sc n ++ showReq E req).head? = some c → c ≠ '.' ∧ isSep c = false := by
      intro c hc
      cases sc with
      | some x => simp [fullName] at hc; subst hc; decide
      | none =>
        cases n with
        | nil => exact absurd rfl h1
        | cons d n =>
          simp [fullName] at hc; subst hc
          refine ⟨by simpa [fullName] using hp1, ?_⟩
          simp only [isSep, Bool.or_eq_false_iff, beq_eq_false_iff_ne]
          exact ⟨fun h => safe_notMem h2 (c := '/') (by decide) (by simp [h]),
            fun h => safe_notMem h2 (c := '\\') (by decide) (by simp [h])⟩
    have e2 : filePath E (fullName sc n ++ showReq E req) = .err :=
      filePath_err E (tagc (by decide)) (fun h => (hhead _ h).1 rfl) (fun c hc => (hhead c hc).2)
        (fun x t hx => hcol (by simp [hx]))
    have e3 : gitShorthand E (fullName sc n ++ showReq E req) = .err := by
      cases sc with
      | some x =>
        exact gitShorthand_err E (a := []) (x := '@') (hostPrefix_err hcol) (by simp) (by decide) (by decide)
      | none =>
        show gitShorthand E (n ++ showReq E req) = .err
        have hsl : '/' ∉ n ++ showReq E req := by simp [safe_notMem h2 (c := '/') (by decide), hreq.1]
        unfold gitShorthand
        rw [opt_of_err (p := hostPrefix) (s := n ++ showReq E req) (hostPrefix_err hcol), ok_bind]
        have : takeTill1 (· == '/') ((n ++ showReq E req) ++ []) = .ok [] (n ++ showReq E req) :=
          takeTill1_show (by simp [h1]) (notMem_bne hsl) (by simp)
        rw [List.append_nil] at this
        unfold safeTill1
        rw [this, ok_bind]
        by_cases hsafe : safe (n ++ showReq E req) = true
        · rw [if_pos hsafe]; rfl
        · rw [if_neg hsafe]; rfl
    have eg : tagNC kGitPlus (fullName sc n ++ showReq E req) = .err := by
      cases sc with
      | some x => rfl
      | none => exact gitPlus_err h2 (showReq_head E req)
    have e4 : gitSpec E (fullName sc n ++ showReq E req) = .err := by
      unfold gitSpec
      rw [alt_of_err e3]
      have : gitUrl E (fullName sc n ++ showReq E req) = .err := by
        unfold gitUrl
        rw [alt_of_err eg, tagc (by decide)]; rfl
      rw [alt_of_err this]
      unfold gitScp
      rw [opt_of_err eg, ok_bind, tagc (by decide)]; rfl
    unfold packageSpec
    rw [alt_of_err e1, alt_of_err e2, alt_of_err e4, opt_of_err (tagc (by decide)), ok_bind]
    exact npmSpec_show hs' hp3

theorem parse_inv {E : SpecEnv V R U} {s : Str} {a : PackageSpec V R U} (h : parse E s = .ok a) :
    packageSpec E s = .ok [] a := by
  unfold parse at h
  split at h
  · next hx => cases h; exact hx
  · cases h
  · cases h

theorem parse_show {E : SpecEnv V R U} {s : Str} {a : PackageSpec V R U} (h : parse E s = .ok a)
    (hp : PrintsBack E a) : parse E (a.show E) = .ok a := by
  have := packageSpec_show (packageSpec_inv (parse_inv h)) hp
  unfold parse
  rw [this]

end PSpec
end Oro
