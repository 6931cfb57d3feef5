import Verif.Spec.Forms
import Verif.Proofs.PackageSpec4
/- The parser accepts every written form. -/

set_option linter.unusedSectionVars false

namespace Oro
namespace PSpec
variable {V R U : Type}

theorem safe_iff {s : Str} : safe s = true ↔ UrlSafe s := by
  unfold safe UrlSafe
  rw [List.all_eq_true]
  refine forall₂_congr fun c _ => ?_
  simp only [safeChar, Bool.or_eq_true, beq_iff_eq, List.mem_cons, List.not_mem_nil, or_false]
  simp only [or_assoc]

theorem nameText_shape {sc : Option Str} {m : Str} (h : NameText sc m) :
    ∃ n, m = fullName sc n ∧ n ≠ [] ∧ safe n = true ∧ (∀ x, sc = some x → x ≠ [] ∧ safe x = true) ∧ m.head? ≠ some '.' := by
  cases h with
  | plain h1 h2 h3 => exact ⟨m, rfl, h1, safe_iff.mpr h2, fun x hx => (by cases hx), h3⟩
  | @inScope s n h1 h2 h3 h4 => exact ⟨n, rfl, h3, safe_iff.mpr h4, fun x hx => by cases hx; exact ⟨h1, safe_iff.mpr h2⟩, by simp⟩

/-- the printers are irrelevant to parsing registry specifiers; `print` fixes one text -/
def withText (E : SpecEnv V R U) (t : Str) : SpecEnv V R U := { E with showV := fun _ => t, showR := fun _ => t }

theorem packageSpec_withText (E : SpecEnv V R U) (t : Str) : packageSpec (withText E t) = packageSpec E := rfl
theorem npmSpec_withText (E : SpecEnv V R U) (t : Str) : npmSpec (withText E t) = npmSpec E := rfl

theorem req_facts {E : SpecEnv V R U} {t : Str} {q : VersionSpec V R} (h : ReqText E t q) :
    q.show (withText E t) = t ∧ ReqPrints (withText E t) (some q) ∧
    (∀ t', q = .tag t' → t' ≠ [] ∧ safe t' = true ∧ E.parseV t' = none ∧ E.parseR t' = none) ∧
    (∀ t', q = .tag t' → t'.head? ≠ some '.') := by
  cases h with
  | version h1 h2 => exact ⟨rfl, ⟨h2, h1⟩, fun t' h => (by cases h), fun t' h => (by cases h)⟩
  | range h1 h2 h3 => exact ⟨rfl, ⟨⟨h3, h1⟩, h2⟩, fun t' h => (by cases h), fun t' h => (by cases h)⟩
  | tag h1 h2 h3 h4 h5 =>
    exact ⟨rfl, trivial, fun t' h => by cases h; exact ⟨h1, safe_iff.mpr h2, h4, h5⟩, fun t' h => by cases h; exact h3⟩

theorem registry_facts {E : SpecEnv V R U} {t : Str} {a : PackageSpec V R U} (h : RegistryText E t a) :
    packageSpec E t = .ok [] a ∧ npmSpec E t = .ok [] a := by
  cases h with
  | @bare sc m hn =>
    obtain ⟨n, h1, h2, h3, h4, h5⟩ := nameText_shape hn
    have hs : NpmShape E sc t none := ⟨n, h1, h2, h3, h4, fun t' h => (by cases h)⟩
    constructor
    · have := packageSpec_show (a := .npm sc t none) (show Shape E _ from hs) ⟨h5, fun t' h => (by cases h), trivial⟩
      simpa [PackageSpec.show, showReq] using this
    · have := npmSpec_show hs trivial
      simpa [showReq] using this
  | @req sc m t q hn hq =>
    obtain ⟨n, h1, h2, h3, h4, h5⟩ := nameText_shape hn
    obtain ⟨q1, q2, q3, q4⟩ := req_facts hq
    have hs : NpmShape (withText E t) sc m (some q) := ⟨n, h1, h2, h3, h4, fun t' h => q3 t' (by simpa using h)⟩
    constructor
    · have := packageSpec_show (a := .npm sc m (some q)) (show Shape (withText E t) _ from hs)
        ⟨h5, fun t' h => q4 t' (by simpa using h), q2⟩
      simpa [PackageSpec.show, showReq, q1, packageSpec_withText] using this
    · have := npmSpec_show hs q2
      simpa [showReq, q1, npmSpec_withText] using this

theorem npm_top (E : SpecEnv V R U) (t : Str) : packageSpec E (kNpm ++ t) = npmSpec E t := by
  have e1 : aliasSpec E (kNpm ++ t) = .err :=
    aliasSpec_err E (a := ['n','p','m']) (x := ':') (by decide) (by decide) (by decide) (by decide)
  have e2 : filePath E (kNpm ++ t) = .err := filePath_err E (by rfl) (by simp [kNpm])
    (by intro c hc; simp [kNpm] at hc; subst hc; rfl) (by intro x t'; simp [kNpm])
  have e3 : gitSpec E (kNpm ++ t) = .err := by
    have : gitShorthand E (kNpm ++ t) = .err :=
      gitShorthand_err E (a := ['n','p','m']) (x := ':') (by rfl) (by decide) (by decide) (by decide)
    unfold gitSpec
    rw [alt_of_err this]
    rfl
  unfold packageSpec
  rw [alt_of_err e1, alt_of_err e2, alt_of_err e3, opt_of_ok (tagNC_append _ _), ok_bind]

theorem pathSpec_text (E : SpecEnv V R U) (hE : E.alphabetic '/' = false) {p : Str} (h : PathText p) :
    pathSpec E p = .ok [] (.dir p) := by
  have optok : ∀ (q : P Unit) (s : Str), (q s).Soft → ∃ r o, opt q s = .ok r o := by
    intro q s hs
    unfold opt
    cases hq : q s with
    | ok r a => exact ⟨_, _, rfl⟩
    | err => exact ⟨_, _, rfl⟩
    | fail => exact absurd hq hs.1
    | panic => exact absurd hq hs.2
  have sepsoft : ∀ s, (seps1 s).Soft := by
    intro s
    unfold seps1
    split
    · exact err_soft
    · split
      · exact ok_soft _ _
      · exact err_soft
  rcases h with h | h
  · cases p with
    | nil => cases h
    | cons c p =>
      simp at h; subst h
      obtain ⟨r, o, ho⟩ := optok (tagNC ['.']) p (tagNC_soft _ _)
      have hr : relativePath ('.' :: p) = .ok [] ('.' :: p) := by
        unfold relativePath
        rw [tag_dot]
        simp only [if_true, ok_bind, ho]
      unfold pathSpec
      rw [alt_of_ok hr]; rfl
  · cases p with
    | nil => cases h
    | cons c p =>
      simp at h; subst h
      have hrel : relativePath ('/' :: p) = .err := by
        unfold relativePath; rw [tag_dot]; rfl
      have hdrive : drive E ('/' :: p) = .err := by unfold drive; simp [hE]
      obtain ⟨r, o, ho⟩ := optok (fun t => (tagNC ['?'] t).bind fun t _ => seps1 t) (p.dropWhile isSep)
        (bind_soft (tagNC_soft _ _) fun _ _ => sepsoft _)
      have habs : absolutePath E ('/' :: p) = .ok [] ('/' :: p) := by
        unfold absolutePath
        rw [opt_of_err hdrive, ok_bind]
        have : seps1 ('/' :: p) = .ok (p.dropWhile isSep) () := by simp [seps1, isSep]
        rw [this, ok_bind, ho, ok_bind]
      unfold pathSpec
      rw [alt_of_err hrel, habs]; rfl

theorem file_prefix (E : SpecEnv V R U) (t : Str) : filePath E (kFile ++ t) = pathSpec E t := by
  unfold filePath
  rw [opt_of_ok (tagNC_append _ _), ok_bind]

/-! ### git -/

theorem commText_head {E : SpecEnv V R U} {c : Str} {cm : Option Str} {sv : Option R} (h : CommText E c cm sv) :
    c = [] ∨ ∃ t, c = '#' :: t := by
  cases h with
  | nothing => exact Or.inl rfl
  | commit _ => exact Or.inr ⟨_, rfl⟩
  | semver _ _ => exact Or.inr ⟨_, rfl⟩

theorem committish_text {E : SpecEnv V R U} {c : Str} {cm : Option Str} {sv : Option R} (h : CommText E c cm sv) :
    committish E c = .ok [] (cm, sv) := by
  cases h with
  | nothing => rfl
  | @commit t h =>
    have hs := safe_iff.mpr h
    have e1 : tagNC kSemver t = .err := tagNC_err_of_notMem (c := ':') (by decide) (by decide) (by decide)
      (safe_notMem hs (by decide))
    have : ((tagNC ['#'] ('#' :: t)).bind fun t _ => commBody E t) = .ok [] (some t, none) := by
      rw [tag_hash]
      simp only [if_true, ok_bind]
      unfold commBody
      have : ((tagNC kSemver t).bind fun s _ => (cut (wholeRes E.parseR) s).map fun r => ((none : Option Str), some r)) = .err := by
        rw [e1]; rfl
      rw [alt_of_err this, if_pos hs]
    unfold committish
    rw [opt_of_ok (p := fun t => (tagNC ['#'] t).bind fun t _ => commBody E t) this]
    rfl
  | @semver t r h1 h2 =>
    have e0 : wholeRes E.parseR t = .ok [] r := wholeRes_ok.mpr ⟨rfl, h1, h2⟩
    have : ((tagNC ['#'] ('#' :: (kSemver ++ t))).bind fun t _ => commBody E t) = .ok [] (none, some r) := by
      rw [tag_hash]
      simp only [if_true, ok_bind]
      unfold commBody
      apply alt_of_ok
      rw [tagNC_append, ok_bind]
      simp [cut, e0, Res.map, Res.bind]
    unfold committish
    rw [show ['s','e','m','v','e','r',':'] ++ t = kSemver ++ t from rfl,
      opt_of_ok (p := fun t => (tagNC ['#'] t).bind fun t _ => commBody E t) this]
    rfl

theorem after_owner {E : SpecEnv V R U} {o r c : Str} {cm : Option Str} {sv : Option R} (h1 : o ≠ []) (h2 : safe o = true)
    (h3 : '#' ∉ r) (hc : CommText E c cm sv) {s : Str} {h : Option GitHost}
    (hh : opt hostPrefix s = .ok (o ++ '/' :: (r ++ c)) h) :
    gitShorthand E s = .ok [] (.hosted o r (h.getD .github) cm sv none) := by
  have e1 : safeTill1 (· == '/') (o ++ '/' :: (r ++ c)) = .ok ('/' :: (r ++ c)) o :=
    safeTill1_ok.mpr ⟨h2, takeTill1_show h1 (notMem_bne (safe_notMem h2 (by decide))) (by simp)⟩
  have hr : ∀ x ∈ r, (x != '#') = true := by
    intro x hx
    simp only [bne_iff_ne]
    rintro rfl; exact h3 hx
  have e2 : (r ++ c).dropWhile (· != '#') = c := by
    rw [List.dropWhile_append_of_pos hr]
    rcases commText_head hc with h | ⟨t, h⟩ <;> simp [h]
  have e3 : (r ++ c).takeWhile (· != '#') = r := by
    rw [List.takeWhile_append_of_pos hr]
    rcases commText_head hc with h | ⟨t, h⟩ <;> simp [h]
  unfold gitShorthand
  rw [hh]
  simp only [Res.bind, e1, tag_slash, if_true, e2, e3, committish_text hc]

theorem gitUrl_text {E : SpecEnv V R U} {q c : Str} {u : U} {cm : Option Str} {sv : Option R} (hq : E.parseU q = some u)
    (hh : '#' ∉ q) (hne : q ≠ []) (hc : CommText E c cm sv) :
    gitUrl E (kGitPlus ++ (q ++ c)) = urlInfo E u (cm, sv) [] := by
  have e1 : takeTill1 (· == '#') (q ++ c) = .ok c q :=
    takeTill1_show hne (notMem_bne hh) (by
      intro x hx
      rcases commText_head hc with h | ⟨t, h⟩
      · rw [h] at hx; cases hx
      · rw [h] at hx; simp at hx; simp [← hx])
  unfold gitUrl
  rw [alt_of_ok (tagNC_append _ _)]
  simp only [Res.bind, e1, hq, committish_text hc]

/-- a keyword with a colon is not at the front of a text without one before its first slash -/
theorem tag_before_slash {k o t : Str} (hk : ':' ∈ k) (hs : '/' ∉ k ∨ ∀ a b, k = a ++ '/' :: b → ':' ∈ a) (ho : ':' ∉ o) :
    tagNC k (o ++ '/' :: t) = .err := by
  induction k generalizing o with
  | nil => cases hk
  | cons x k ih =>
    cases o with
    | nil =>
      simp only [List.nil_append]
      have : x ≠ '/' := by
        rintro rfl
        rcases hs with hs | hs
        · exact hs (by simp)
        · exact absurd (hs [] k rfl) (by simp)
      rw [tagNC, if_neg]
      intro hl
      have h' : '/'.toLower = '/' := by decide
      rw [h'] at hl
      exact this (toLower_eq_self_of (by decide) hl)
    | cons y o =>
      rw [List.cons_append, tagNC]
      by_cases hl : x.toLower = y.toLower
      · rw [if_pos hl]
        by_cases hx : x = ':'
        · subst hx
          have h' : ':'.toLower = ':' := by decide
          rw [h'] at hl
          have := toLower_eq_self_of (by decide) hl.symm
          exact absurd (by simp [this]) ho
        · refine ih (by simpa [Ne.symm hx] using hk) ?_ (fun h => ho (by simp [h]))
          rcases hs with hs | hs
          · exact Or.inl fun h => hs (by simp [h])
          · refine Or.inr fun a b h => ?_
            have := hs (x :: a) b (by rw [h]; rfl)
            simpa [Ne.symm hx] using this
      · rw [if_neg hl]

theorem dropGit_self {n : Str} (h : ¬ ['.','g','i','t'] <:+: n) : dropGit n = n := by
  induction n with
  | nil => rfl
  | cons c n ih =>
    unfold dropGit
    split
    · next heq => rw [heq] at h; exact absurd ⟨[], _, rfl⟩ h
    · next c' s' _ heq =>
      cases heq
      rw [ih fun h' => h (h'.trans (List.infix_cons (List.infix_refl _)))]
    · next heq => cases heq

theorem dropGit_suffix {n : Str} (h : ¬ ['.','g','i','t'] <:+: n) : dropGit (n ++ ['.','g','i','t']) = n := by
  induction n with
  | nil => rfl
  | cons c n ih =>
    have hi := ih fun h' => h (h'.trans (List.infix_cons (List.infix_refl _)))
    rw [List.cons_append]
    unfold dropGit
    split
    · next s' heq =>
      exfalso
      match n, heq with
      | [], heq => simp at heq
      | [a], heq => simp at heq
      | [a, b], heq => simp at heq
      | a :: b :: d :: n, heq =>
        simp only [List.cons_append, List.cons.injEq] at heq
        obtain ⟨rfl, rfl, rfl, rfl, _⟩ := heq
        exact h ⟨[], n, rfl⟩
    · next c' s' _ heq => cases heq; rw [hi]
    · next heq => cases heq

theorem repoName_text {n e : Str} (h : ¬ ['.','g','i','t'] <:+: n) (he : e = [] ∨ e = ['.','g','i','t']) :
    repoName (n ++ e) = n := by
  unfold repoName
  rcases he with rfl | rfl
  · rw [List.append_nil, dropGit_self h]; split <;> rfl
  · rw [dropGit_suffix h, if_pos]
    exact List.isSuffixOf_iff_suffix.mpr ⟨n, rfl⟩

theorem tagNC_append_bind (a b s : Str) : tagNC (a ++ b) s = (tagNC a s).bind fun s _ => tagNC b s := by
  induction a generalizing s with
  | nil => rfl
  | cons c a ih =>
    cases s with
    | nil => rfl
    | cons d s =>
      rw [List.cons_append, tagNC, tagNC]
      split
      · exact ih s
      · rfl

theorem hostPrefix_short {o t : Str} (ho : ':' ∉ o) : hostPrefix (o ++ '/' :: t) = .err := by
  refine (hostPrefix_soft _).eq_err fun r g hh => ?_
  unfold hostPrefix at hh
  obtain ⟨s1, g', hg, hh⟩ := bind_ok.mp hh
  obtain ⟨s2, u, hc, _⟩ := bind_ok.mp hh
  have key : ∀ (h : GitHost), ((tagNC h.show (o ++ '/' :: t)).map fun _ => h) = .ok s1 g' → False := by
    intro h hm
    obtain ⟨_, hm, _⟩ := map_ok.mp hm
    have : tagNC (h.show ++ [':']) (o ++ '/' :: t) = .err :=
      tag_before_slash (by simp) (Or.inl (by cases h <;> decide)) ho
    rw [tagNC_append_bind, hm, ok_bind, hc] at this
    cases this
  rcases alt_ok.mp hg with h | ⟨_, h⟩
  · exact key _ h
  rcases alt_ok.mp h with h | ⟨_, h⟩
  · exact key _ h
  rcases alt_ok.mp h with h | ⟨_, h⟩
  · exact key _ h
  · exact key _ h

theorem knownHost_domain (h : GitHost) : knownHost (hostDomain h) = some h := by cases h <;> decide

theorem knownHost_other {x : Str} (h : ∀ g, x ≠ hostDomain g) : knownHost x = none := by
  have e : "github.com".toList = hostDomain .github ∧ "gitlab.com".toList = hostDomain .gitlab ∧
    "gist.github.com".toList = hostDomain .gist ∧ "bitbucket.org".toList = hostDomain .bitbucket := by decide
  unfold knownHost
  rw [e.1, e.2.1, e.2.2.1, e.2.2.2, if_neg (h _), if_neg (h _), if_neg (h _), if_neg (h _)]

/-- every git form is read as git, and by nothing tried before -/
theorem git_facts {E : SpecEnv V R U} {t : Str} {i : GitInfo R U} (h : GitForm E t i) :
    gitSpec E t = .ok [] (.git i) ∧ filePath E t = .err ∧ aliasSpec E t = .err := by
  cases h with
  | @short o r c cm sv h1 h2 h3 h4 h5 h6 hc =>
    have hs := safe_iff.mpr h2
    have hcol := safe_notMem hs (c := ':') (by decide)
    refine ⟨?_, ?_, ?_⟩
    · have := after_owner h1 hs h4 hc (opt_of_err (hostPrefix_short (o := o) (t := r ++ c) hcol))
      unfold gitSpec
      rw [alt_of_ok this]; rfl
    · refine filePath_err E (tag_before_slash (by decide) (Or.inl (by decide)) hcol) ?_ ?_ ?_
      · cases o with
        | nil => exact absurd rfl h1
        | cons x o => simpa using h3
      · intro x hx
        cases o with
        | nil => exact absurd rfl h1
        | cons y o =>
          simp at hx; subst hx
          simp only [isSep, Bool.or_eq_false_iff, beq_eq_false_iff_ne]
          exact ⟨fun h => safe_notMem hs (c := '/') (by decide) (by simp [h]),
            fun h => safe_notMem hs (c := '\\') (by decide) (by simp [h])⟩
      · intro x t' heq
        match o, heq with
        | [], heq => exact absurd rfl h1
        | [y], heq => simp at heq
        | y :: z :: o, heq =>
          simp at heq
          exact hcol (by simp [heq.2.1])
    · refine aliasSpec_err_of_no_at E ?_
      simp [safe_notMem hs (c := '@') (by decide), h5, h6]
  | @host h o r c cm sv h1 h2 h4 hc =>
    have e : hostWord h = h.show := by cases h <;> rfl
    rw [e]
    obtain ⟨a1, a2⟩ := gitText_host E h (o ++ '/' :: (r ++ c))
    refine ⟨?_, a2, a1⟩
    have := after_owner h1 (safe_iff.mpr h2) h4 hc (opt_of_ok (hostPrefix_show h (o ++ '/' :: (r ++ c))))
    unfold gitSpec
    rw [alt_of_ok this]; rfl
  | @url q c u cm sv h1 h2 h3 h4 hc =>
    obtain ⟨a1, a2, a3⟩ := gitText_errs E (s := kGitPlus ++ (q ++ c)) ⟨_, Or.inl rfl⟩
    refine ⟨?_, a2, a1⟩
    have hk : (E.host u).bind knownHost = none := by
      cases hu : E.host u with
      | none => rfl
      | some x => exact knownHost_other fun g he => h4 g (by rw [hu, he])
    have e := gitUrl_text h1 h2 h3 hc
    rw [urlInfo, hk] at e
    show gitSpec E (kGitPlus ++ (q ++ c)) = _
    unfold gitSpec
    rw [alt_of_err a3, alt_of_ok e]; rfl
  | @repo q c o n e u h cm sv h1 h2 h3 h4 h5 h6 h7 h8 h9 hc =>
    obtain ⟨a1, a2, a3⟩ := gitText_errs E (s := kGitPlus ++ (q ++ c)) ⟨_, Or.inl rfl⟩
    refine ⟨?_, a2, a1⟩
    have hk : (E.host u).bind knownHost = some h := by rw [h4]; exact knownHost_domain h
    have hsp : splitChar '/' (o ++ '/' :: (n ++ e)) = [o, n ++ e] := splitChar_two h6 (by
      rcases h9 with rfl | rfl
      · simpa using h7
      · simp [h7])
    have e' := gitUrl_text h1 h2 h3 hc
    rw [urlInfo, hk] at e'
    simp only [h5, hsp, repoName_text h8 h9] at e'
    show gitSpec E (kGitPlus ++ (q ++ c)) = _
    unfold gitSpec
    rw [alt_of_err a3, alt_of_ok e']; rfl

theorem prefixed_text {E : SpecEnv V R U} (hE : E.alphabetic '/' = false) {t : Str} {a : PackageSpec V R U}
    (h : AliasedText E t a) : prefixedSpec E t = .ok [] a := by
  cases h with
  | @registry t _ h => rw [show ['n','p','m',':'] ++ t = kNpm ++ t from rfl, npm_prefixed]; exact (registry_facts h).2
  | path h =>
    unfold prefixedSpec
    rw [alt_of_ok (file_of_path (pathSpec_text E hE h))]
  | @file p h =>
    show prefixedSpec E (kFile ++ p) = _
    unfold prefixedSpec
    rw [alt_of_ok ((file_prefix E p).trans (pathSpec_text E hE h))]
  | git h =>
    obtain ⟨h1, h2, _⟩ := git_facts h
    unfold prefixedSpec
    rw [alt_of_err h2, alt_of_ok h1]

theorem written_text {E : SpecEnv V R U} (hE : E.alphabetic '/' = false) {t : Str} {a : PackageSpec V R U}
    (h : Written E t a) : packageSpec E t = .ok [] a := by
  cases h with
  | registry h => exact (registry_facts h).1
  | @npm t _ h => exact (npm_top E t).trans (registry_facts h).2
  | path h h' =>
    unfold packageSpec
    rw [alt_of_err (aliasSpec_err_of_no_at E h'), alt_of_ok (file_of_path (pathSpec_text E hE h))]
  | @file p h =>
    have e1 : aliasSpec E (kFile ++ p) = .err :=
      aliasSpec_err E (a := ['f','i','l','e']) (x := ':') (by decide) (by decide) (by decide) (by decide)
    show packageSpec E (kFile ++ p) = _
    unfold packageSpec
    rw [alt_of_err e1, alt_of_ok ((file_prefix E p).trans (pathSpec_text E hE h))]
  | git h =>
    obtain ⟨h1, h2, h3⟩ := git_facts h
    unfold packageSpec
    rw [alt_of_err h3, alt_of_err h2, alt_of_ok h1]
  | @alias sc m t a hn h =>
    obtain ⟨n, rfl, h1, h2, h3, _⟩ := nameText_shape hn
    have hfull : fullName sc n = aliasName (sc.map ('@' :: ·)) n := by cases sc <;> rfl
    unfold packageSpec
    apply alt_of_ok
    rw [hfull, aliasSpec_front h1 h2 (by
      intro x hx
      cases sc with
      | none => cases hx
      | some y => cases hx; obtain ⟨a, b⟩ := h3 y rfl; exact ⟨y, Or.inr rfl, a, b⟩) (by simp), tag_at]
    simp [prefixed_text hE h, Res.map]

end PSpec
end Oro
