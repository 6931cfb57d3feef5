import Verif.Proofs.PackageSpec3
/- Specifiers that do not survive printing and parsing, and one that crashes the parser. -/

set_option linter.unusedSectionVars false

namespace Oro
namespace PSpec

variable {V R U : Type}

theorem kSsh_err {n r : Str} (h2 : safe n = true) (hr : ∀ c, r.head? = some c → c = '@') :
    tagNC kSsh (n ++ r) = .err := by
  rcases tagNC_cases kSsh (n ++ r) with h' | ⟨a, r', _, ha, hl, hm⟩
  · exact h'
  · exfalso
    have hcol : ':' ∈ a := by
      have : ':' ∈ a.map Char.toLower := by rw [hm]; decide
      obtain ⟨d, hd, hdc⟩ := List.mem_map.mp this
      exact (toLower_eq_self_of (by decide) hdc) ▸ hd
    have hnoat : '@' ∉ a := by
      intro hat
      have : Char.toLower '@' ∈ kSsh.map Char.toLower := hm ▸ List.mem_map_of_mem hat
      revert this; decide
    rcases List.append_eq_append_iff.mp ha with ⟨b, rfl, hb⟩ | ⟨b, rfl, _⟩
    · cases b with
      | nil => exact safe_notMem h2 (c := ':') (by decide) (by simpa using hcol)
      | cons c b =>
        have := hr c (by rw [hb]; rfl)
        subst this
        exact hnoat (by simp)
    · exact safe_notMem h2 (c := ':') (by decide) (List.mem_append_left _ hcol)

theorem npmGitPlus_err (E : SpecEnv V R U) (t : Str) :
    ((opt (tagNC kNpm) (kGitPlus ++ t)).bind fun s _ => npmSpec E s) = .err := by
  have h1 : tagNC kNpm (kGitPlus ++ t) = .err := by rfl
  have h2 : npmScope (kGitPlus ++ t) = .err := by rfl
  have h3 : safeTill1 (fun c => c == '@' || c == '/') (kGitPlus ++ t) = .err :=
    safeTill1_unsafe (a := ['g','i','t']) (x := '+') (by decide) (by decide) (by decide)
  rw [opt_of_err h1, ok_bind]
  unfold npmSpec
  rw [opt_of_err h2, ok_bind, h3, err_bind]

theorem splitChar_two {a b : Str} (ha : '/' ∉ a) (hb : '/' ∉ b) : splitChar '/' (a ++ '/' :: b) = [a, b] := by
  have h1 : ∀ {l : Str}, '/' ∉ l → splitChar '/' l = [l] := by
    intro l
    induction l with
    | nil => intro _; rfl
    | cons c l ih =>
      intro h
      simp only [List.mem_cons, not_or] at h
      rw [splitChar, if_neg (Ne.symm h.1), ih h.2]
  induction a with
  | nil => rw [List.nil_append, splitChar, if_pos rfl, h1 hb]
  | cons c a ih =>
    simp only [List.mem_cons, not_or] at ha
    rw [List.cons_append, splitChar, if_neg (Ne.symm ha.1), ih ha.2]

/-- text of the four hosts -/
def hostText : GitHost → Str
  | .github => ['g','i','t','h','u','b','.','c','o','m']
  | .gitlab => ['g','i','t','l','a','b','.','c','o','m']
  | .gist => ['g','i','s','t','.','g','i','t','h','u','b','.','c','o','m']
  | .bitbucket => ['b','i','t','b','u','c','k','e','t','.','o','r','g']

theorem knownHost_text (h : GitHost) : knownHost (hostText h) = some h := by cases h <;> decide

theorem hostText_ok (h : GitHost) : hostText h ≠ [] ∧ ':' ∉ hostText h ∧ '#' ∉ hostText h := by cases h <;> decide

/-- An ssh address of a known host is read as a repository of that host, and prints to a text that cannot be read. -/
theorem ssh_hosted {E : SpecEnv V R U} {user o n : Str} {h : GitHost}
    (hu : user ≠ [] ∧ safe user = true) (ho : safe o = true) (hn : safe n = true)
    (hurl : E.parseU (kSsh ++ (user ++ '@' :: (hostText h ++ ':' :: (o ++ '/' :: n)))) = none)
    (hraw : E.parseU (user ++ '@' :: (hostText h ++ ':' :: (o ++ '/' :: n))) = none) :
    ∃ i : GitInfo R U, parse E (kGitPlus ++ kSsh ++ (user ++ '@' :: (hostText h ++ ':' :: (o ++ '/' :: n)))) = .ok (.git i) ∧
      i.show E = kGitPlus ++ (user ++ '@' :: (hostText h ++ ':' :: (o ++ '/' :: n))) ∧
      parse E (i.show E) = .error := by
  have hraw' : scpRaw (some user) (hostText h) (some (o ++ '/' :: n)) =
      user ++ '@' :: (hostText h ++ ':' :: (o ++ '/' :: n)) := by simp [scpRaw, scpTail]
  have hshape : ScpShape (some user) (hostText h) (some (o ++ '/' :: n)) :=
    ⟨fun u hu' => by cases hu'; exact ⟨hu.1, safe_notMem hu.2 (by decide)⟩, hostText_ok h,
     fun p hp => by
      cases hp
      refine ⟨by simp, ?_⟩
      simp [safe_notMem ho (c := '#') (by decide), safe_notMem hn (c := '#') (by decide)],
     fun hno => by cases hno⟩
  have hcomm : CommShape (R := R) none none := Or.inl rfl
  have hsem : SemverPrints E none := fun r hr => by cases hr
  have hsplit := splitChar_two (safe_notMem ho (c := '/') (by decide)) (safe_notMem hn (c := '/') (by decide))
  have hinfo : (scpInfo (some user) (hostText h) (some (o ++ '/' :: n)) ((none : Option Str), (none : Option R)) : GitInfo R U) =
      .hosted o (repoName (repoName n)) h none none (some (user ++ '@' :: (hostText h ++ ':' :: (o ++ '/' :: n)))) := by
    simp only [scpInfo, knownHost_text, hsplit, hraw']
  have hscp := gitScp_show (E := E) hshape hcomm hsem
  rw [hinfo, hraw'] at hscp
  generalize hT : user ++ '@' :: (hostText h ++ ':' :: (o ++ '/' :: n)) = T at *
  have hTh : '#' ∉ T := by
    rw [← hT]
    simp [safe_notMem ho (c := '#') (by decide), safe_notMem hn (c := '#') (by decide),
      safe_notMem hu.2 (c := '#') (by decide), (hostText_ok h).2.2]
  have hTne : T ≠ [] := by rw [← hT]; simp
  simp only [showComm, List.append_nil] at hscp
  have htext : ∀ t, GitText (kGitPlus ++ t) := fun t => ⟨t, Or.inl rfl⟩
  have hshow : (.hosted o (repoName (repoName n)) h none none (some T) : GitInfo R U).show E =
      kGitPlus ++ T := by
    have : kGitSlash.isPrefixOf T = false := by
      rw [Bool.eq_false_iff]
      intro hp
      obtain ⟨t, ht⟩ := List.isPrefixOf_iff_prefix.mp hp
      -- the text would start with `git:`, but the user part has no colon and ends with `@`
      have : tagNC kGitSlash (user ++ '@' :: (hostText h ++ ':' :: (o ++ '/' :: n))) = .err := by
        rcases tagNC_cases kGitSlash (user ++ '@' :: (hostText h ++ ':' :: (o ++ '/' :: n))) with h' | ⟨a, r', _, ha, hl, hm⟩
        · exact h'
        · exfalso
          have hcol : ':' ∈ a := by
            have : ':' ∈ a.map Char.toLower := by rw [hm]; decide
            obtain ⟨d, hd, hdc⟩ := List.mem_map.mp this
            exact (toLower_eq_self_of (by decide) hdc) ▸ hd
          have hnoat : '@' ∉ a := by
            intro hat
            have : Char.toLower '@' ∈ kGitSlash.map Char.toLower := hm ▸ List.mem_map_of_mem hat
            revert this; decide
          rcases List.append_eq_append_iff.mp ha with ⟨b, rfl, hb⟩ | ⟨b, rfl, _⟩
          · cases b with
            | nil => exact safe_notMem hu.2 (c := ':') (by decide) (by simpa using hcol)
            | cons c b =>
              rw [List.cons_append, List.cons.injEq] at hb
              obtain ⟨rfl, _⟩ := hb
              exact hnoat (by simp)
          · exact safe_notMem hu.2 (c := ':') (by decide) (List.mem_append_left _ hcol)
      rw [hT, ← ht, tagNC_append] at this
      cases this
    simp [GitInfo.show, this, showComm]
  refine ⟨.hosted o (repoName (repoName n)) h none none (some T), ?_, hshow, ?_⟩
  · obtain ⟨e1, e2, e3⟩ := gitText_errs E (htext (kSsh ++ T))
    have e4 : gitUrl E (kGitPlus ++ (kSsh ++ T)) = .err := by
      have : takeTill1 (· == '#') (kSsh ++ T ++ []) = .ok [] (kSsh ++ T) :=
        takeTill1_show (by simp [kSsh]) (notMem_bne (by
          simp only [List.mem_append, not_or]
          exact ⟨by decide, hTh⟩)) (by simp)
      rw [List.append_nil] at this
      unfold gitUrl
      rw [alt_of_ok (tagNC_append _ _), ok_bind, this, ok_bind, hurl]
    rw [List.append_assoc] at hscp ⊢
    unfold parse packageSpec gitSpec
    rw [alt_of_err e1, alt_of_err e2]
    simp only [alt, e3, e4, hscp, Res.map, ok_bind]
  · rw [hshow]
    obtain ⟨e1, e2, e3⟩ := gitText_errs E (htext T)
    have e4 : gitUrl E (kGitPlus ++ T) = .err := by
      have : takeTill1 (· == '#') (T ++ []) = .ok [] T := takeTill1_show hTne (notMem_bne hTh) (by simp)
      rw [List.append_nil] at this
      unfold gitUrl
      rw [alt_of_ok (tagNC_append _ _), ok_bind, this, ok_bind, hraw]
    have e5 : gitScp E (kGitPlus ++ T) = .err := by
      unfold gitScp
      have : tagNC kSsh T = .err := by
        rw [← hT]; exact kSsh_err hu.2 (by simp)
      rw [opt_of_ok (tagNC_append _ _), ok_bind, this, err_bind]
    unfold parse packageSpec gitSpec
    rw [alt_of_err e1, alt_of_err e2]
    simp only [alt, e3, e4, e5, Res.map, err_bind, npmGitPlus_err]

/-- The address of a known host without any path crashes the parser. -/
theorem bare_host_panics {E : SpecEnv V R U} {t : Str} {u : U} {h : GitHost} (ht : '#' ∉ t)
    (hu : E.parseU (kGitSlash ++ t) = some u) (hh : (E.host u).bind knownHost = some h) (hp : E.path u = []) :
    parse E (kGitSlash ++ t) = .panic := by
  obtain ⟨e1, e2, e3⟩ := gitText_errs E (s := kGitSlash ++ t) ⟨t, Or.inr rfl⟩
  have e4 := gitUrl_show (E := E) (q := kGitSlash ++ t) (u := u) (c := none) (s := none) (Or.inl rfl)
    (fun r hr => by cases hr) hu (by
      simp only [List.mem_append, not_or]
      exact ⟨by decide, ht⟩) (by simp [kGitSlash]) (pre := []) (Or.inr ⟨rfl, t, rfl⟩)
  have e5 : urlInfo E u ((none : Option Str), (none : Option R)) [] = .panic := by simp [urlInfo, hh, hp]
  rw [e5] at e4
  simp only [showComm, List.append_nil, List.nil_append] at e4
  unfold parse packageSpec gitSpec
  rw [alt_of_err e1, alt_of_err e2]
  simp only [alt, e3, e4, Res.map, Res.bind]

/-- A registry specifier whose tag starts with a dot prints like an alias for a directory. -/
theorem dot_tag {E : SpecEnv V R U} {n t : Str} (hn : n ≠ [] ∧ safe n = true) (ht : safe ('.' :: t) = true)
    (h1 : E.parseV ('.' :: t) = none) (h2 : E.parseR ('.' :: t) = none) :
    parse E (kNpm ++ (n ++ '@' :: '.' :: t)) = .ok (.npm none n (some (.tag ('.' :: t)))) ∧
    parse E ((PackageSpec.npm none n (some (.tag ('.' :: t))) : PackageSpec V R U).show E) =
      .ok (.alias n (.dir ('.' :: t))) := by
  constructor
  · have hs : NpmShape E none n (some (.tag ('.' :: t))) :=
      ⟨n, rfl, hn.1, hn.2, by simp, fun t' ht' => by cases ht'; exact ⟨by simp, ht, h1, h2⟩⟩
    have e0 := npmSpec_show hs trivial
    have e1 : aliasSpec E (kNpm ++ (n ++ '@' :: '.' :: t)) = .err :=
      aliasSpec_err E (a := ['n','p','m']) (x := ':') (by decide) (by decide) (by decide) (by decide)
    have e2 : filePath E (kNpm ++ (n ++ '@' :: '.' :: t)) = .err := filePath_err E (by rfl) (by simp [kNpm])
      (by intro c hc; simp [kNpm] at hc; subst hc; rfl) (by intro x t'; simp [kNpm])
    have e3 : gitSpec E (kNpm ++ (n ++ '@' :: '.' :: t)) = .err := by
      have : gitShorthand E (kNpm ++ (n ++ '@' :: '.' :: t)) = .err :=
        gitShorthand_err E (a := ['n','p','m']) (x := ':') (by rfl) (by decide) (by decide) (by decide)
      unfold gitSpec
      rw [alt_of_err this]
      rfl
    unfold parse packageSpec
    rw [alt_of_err e1, alt_of_err e2, alt_of_err e3, opt_of_ok (tagNC_append _ _), ok_bind]
    rw [show n ++ '@' :: '.' :: t = n ++ showReq E (some (.tag ('.' :: t))) from rfl, e0]
  · have e := aliasSpec_front (E := E) (sc := none) (n := n) (r := '@' :: '.' :: t) hn.1 hn.2 (by simp) (by simp)
    have hp : prefixedSpec E ('.' :: t) = .ok [] (.dir ('.' :: t)) := by
      have : pathSpec E ('.' :: t) = .ok [] (.dir ('.' :: t)) := by
        have hr : relativePath ('.' :: t) = .ok [] ('.' :: t) := by
          unfold relativePath
          rw [tag_dot]
          simp only [if_true, ok_bind]
          have := opt_soft (tagNC_soft ['.'] t)
          cases ho : opt (tagNC ['.']) t with
          | ok => rfl
          | err =>
            unfold opt at ho
            cases hx : tagNC ['.'] t <;> simp [hx] at ho
          | fail => exact absurd ho this.1
          | panic => exact absurd ho this.2
        unfold pathSpec
        rw [alt_of_ok hr]; rfl
      unfold prefixedSpec
      rw [alt_of_ok (file_of_path this)]
    have e' : aliasSpec E (n ++ '@' :: '.' :: t) = .ok [] (.alias n (.dir ('.' :: t))) := by
      rw [show n ++ '@' :: '.' :: t = aliasName none n ++ '@' :: '.' :: t from rfl, e, tag_at]
      simp [hp, Res.map, aliasName]
    show parse E (n ++ '@' :: '.' :: t) = _
    unfold parse packageSpec
    rw [alt_of_ok e']

/-! ### targets -/

theorem target_unaliased (s : PackageSpec V R U) : Unaliased s s.target := by
  induction s with
  | dir p => exact .dir
  | npm a b c => exact .npm
  | git i => exact .git
  | alias n s ih =>
    unfold PackageSpec.target
    split
    · exact .alias ih
    · next h =>
      cases s with
      | dir p => exact .alias .dir
      | npm a b c => exact .alias .npm
      | git i => exact .alias .git
      | alias m s => exact absurd rfl h

theorem unaliased_det {s t : PackageSpec V R U} (h : Unaliased s t) : t = s.target := by
  induction h with
  | dir => rfl
  | npm => rfl
  | git => rfl
  | @alias n s t h ih =>
    rw [ih]
    cases s <;> rfl

end PSpec
end Oro
