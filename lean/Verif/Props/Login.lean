import Verif.Spec.Login
import Verif.Props.UseCreds
/- Properties C66 and C67: logging in and out. -/
set_option linter.unusedSectionVars false
namespace Oro
namespace Login
open Auth Config
variable {E : Env}

/-! ### answers -/

theorem contains_iff (pat s : Str) : contains pat s = true ↔ Within pat s := by
  induction s with
  | nil =>
    unfold contains Within
    constructor
    · intro h
      rw [List.isEmpty_iff] at h
      exact ⟨[], [], by simp [h]⟩
    · rintro ⟨pre, post, h⟩
      have := (List.append_eq_nil_iff.1 h.symm).2
      rw [List.isEmpty_iff]
      exact (List.append_eq_nil_iff.1 this).1
  | cons c s ih =>
    unfold contains
    rw [Bool.or_eq_true, ih, List.isPrefixOf_iff_prefix]
    constructor
    · rintro (⟨post, h⟩ | ⟨pre, post, h⟩)
      · exact ⟨[], post, h.symm⟩
      · exact ⟨c :: pre, post, by rw [h]; rfl⟩
    · rintro ⟨pre, post, h⟩
      cases pre with
      | nil => exact .inl ⟨post, h.symm⟩
      | cons d pre => exact .inr ⟨pre, post, (List.cons.inj h).2⟩

theorem fetchDone_token {a : Option Answer} {t : Str} : fetchDone E a = .ok (.token t) ↔ Granted E a t := by
  cases a with
  | none => simp [fetchDone, Granted]
  | some a =>
    unfold fetchDone Granted
    by_cases h : a.status = 200
    · cases hb : E.tokenIn a.body <;> simp [h, hb]
    · by_cases h2 : a.status = 202
      · cases hr : a.retry with
        | none => simp [h2, hr]
        | some r =>
          cases r with
          | none => simp [h2, hr]
          | some r => cases hn : E.number r <;> simp [h2, hr, hn]
      · simp [h, h2]

theorem fetchDone_wait {a : Option Answer} {n : Nat} : fetchDone E a = .ok (.wait n) ↔ Pending E a n := by
  cases a with
  | none => simp [fetchDone, Pending]
  | some a =>
    unfold fetchDone Pending
    by_cases h : a.status = 200
    · cases hb : E.tokenIn a.body <;> simp [h, hb]
    · by_cases h2 : a.status = 202
      · cases hr : a.retry with
        | none => simp [h2, hr]
        | some r =>
          cases r with
          | none => simp [h2, hr]
          | some r => cases hn : E.number r <;> simp [h2, hr, hn]
      · simp [h, h2]

theorem poll_iff {url : Str} {answers : List (Option Answer)} {t : Str} : (poll E url answers).1 = .ok t ↔ Polled E answers t := by
  induction answers with
  | nil => simp [poll, Polled]
  | cons a rest ih =>
    rw [poll]
    constructor
    · intro h
      cases hf : fetchDone E a with
      | ok x =>
        rw [hf] at h
        cases x with
        | token t' =>
          simp only [Res.ok.injEq] at h
          subst h
          exact ⟨[], a, rest, rfl, by simp, fetchDone_token.1 hf⟩
        | wait n =>
          obtain ⟨ws, d, r, h1, h2, h3⟩ := ih.1 h
          refine ⟨a :: ws, d, r, by rw [h1]; rfl, ?_, h3⟩
          intro w hw
          rcases List.mem_cons.1 hw with rfl | hw
          · exact ⟨n, fetchDone_wait.1 hf⟩
          · exact h2 w hw
      | err e => rw [hf] at h; cases h
      | panic => rw [hf] at h; cases h
      | waiting => rw [hf] at h; cases h
    · rintro ⟨ws, d, r, h1, h2, h3⟩
      cases ws with
      | nil =>
        cases h1
        rw [fetchDone_token.2 h3]
      | cons w ws =>
        cases h1
        obtain ⟨n, hn⟩ := h2 a List.mem_cons_self
        rw [fetchDone_wait.2 hn]
        exact ih.2 ⟨ws, d, r, rfl, fun w hw => h2 w (List.mem_cons_of_mem _ hw), h3⟩

theorem loginWeb_iff {a : Option Answer} {p : Str × Str} : loginWeb E a = .ok p ↔ Started E a p.1 p.2 := by
  cases a with
  | none => simp [loginWeb, Started]
  | some a =>
    unfold loginWeb Started
    by_cases h : 400 ≤ a.status ∧ a.status ≤ 599
    · have : ¬ (a.status < 400 ∨ 600 ≤ a.status) := by omega
      simp only [if_pos h]
      constructor
      · intro hx; cases hx
      · rintro ⟨b, hb, h', _⟩; cases hb; exact absurd h' this
    · have : a.status < 400 ∨ 600 ≤ a.status := by omega
      simp only [if_neg h]
      cases hb : E.pagesIn a.body with
      | none =>
        constructor
        · intro hx; cases hx
        · rintro ⟨b, hb', _, h'⟩; cases hb'; rw [hb] at h'; cases h'
      | some q =>
        constructor
        · intro hx
          simp only [Res.ok.injEq] at hx
          subst hx
          exact ⟨a, rfl, this, hb⟩
        · rintro ⟨b, hb', _, h'⟩
          cases hb'
          rw [hb] at h'
          cases h'
          rfl

theorem webFlow_iff {answers : List (Option Answer)} {t : Str} : (webFlow E answers).1 = .ok t ↔
    ∃ a rest page done, answers = a :: rest ∧ Started E a page done ∧ E.opens page = true ∧ Polled E rest t := by
  cases answers with
  | nil => simp [webFlow]
  | cons a rest =>
    rw [webFlow]
    constructor
    · intro h
      cases hw : loginWeb E a with
      | ok p =>
        rw [hw] at h
        obtain ⟨page, done⟩ := p
        dsimp only at h
        split at h
        · rename_i ho
          exact ⟨a, rest, page, done, rfl, loginWeb_iff.1 hw, ho, poll_iff.1 h⟩
        · cases h
      | err e => rw [hw] at h; cases h
      | panic => rw [hw] at h; cases h
      | waiting => rw [hw] at h; cases h
    · rintro ⟨a', rest', page, done, h1, h2, h3, h4⟩
      cases h1
      rw [(loginWeb_iff (p := (page, done))).2 h2]
      dsimp only
      rw [if_pos h3]
      exact poll_iff.2 h4

/-! ### user and password -/

theorem loginCouch_token {user : Str} {otp : Option Str} {a : Option Answer} {t : Str} :
    loginCouch E user otp a = .ok (.token t) ↔ Accepted E a t := by
  cases a with
  | none => simp [loginCouch, Accepted]
  | some a =>
    constructor
    · intro h
      rw [loginCouch] at h
      split at h
      · cases h
      split at h
      · split at h
        · cases h
        · dsimp only at h
          split at h
          · split at h
            · split at h <;> cases h
            · cases h
          · split at h
            · cases h
            · split at h <;> cases h
      split at h
      · cases h
      · rename_i h1 h2 h3
        cases hb : E.tokenIn a.body with
        | none => rw [hb] at h; cases h
        | some t' =>
          rw [hb] at h
          cases h
          exact ⟨a, rfl, by omega, hb⟩
    · rintro ⟨b, hb, h1, h2⟩
      cases hb
      rw [loginCouch, if_neg (by omega), if_neg (by omega), if_neg (by omega), h2]

theorem otp_said {a : Answer} (hw : a.www ≠ some none) :
    (contains wOtp ((a.www.bind id).elim [] E.lower) || contains wOneTime (E.lower a.body)) = true ↔ NeedsOtp E (some a) a ∨
      (a.status ≠ 401 ∧ ((∃ w, a.www = some (some w) ∧ Within wOtp (E.lower w)) ∨ Within wOneTime (E.lower a.body))) := by
  rw [Bool.or_eq_true, contains_iff, contains_iff]
  have hx : Within wOtp ((a.www.bind id).elim [] E.lower) ↔ ∃ w, a.www = some (some w) ∧ Within wOtp (E.lower w) := by
    cases h : a.www with
    | none =>
      constructor
      · rintro ⟨pre, post, h⟩
        exfalso
        have := congrArg List.length h
        simp [wOtp] at this
      · rintro ⟨w, hw, _⟩; cases hw
    | some x =>
      cases x with
      | none => exact absurd h hw
      | some w =>
        constructor
        · intro h; exact ⟨w, rfl, h⟩
        · rintro ⟨w', hw', h⟩; cases hw'; exact h
  rw [hx]
  by_cases h401 : a.status = 401
  · constructor
    · intro h; exact .inl ⟨rfl, h401, hw, h⟩
    · rintro (⟨_, _, _, h⟩ | ⟨h, _⟩)
      · exact h
      · exact absurd h401 h
  · constructor
    · intro h; exact .inr ⟨h401, h⟩
    · rintro (⟨_, h, _⟩ | ⟨_, h⟩)
      · exact absurd h h401
      · exact h

theorem loginCouch_otp {user : Str} {a : Option Answer} : (∀ page done, loginCouch E user none a = .ok (.webOtp page done) ↔
      ∃ b, NeedsOtp E a b ∧ OtpPages E b page done) ∧
    (loginCouch E user none a = .ok .classicOtp ↔ ∃ b, NeedsOtp E a b ∧ ∀ page done, ¬ OtpPages E b page done) := by
  cases a with
  | none => simp [loginCouch, NeedsOtp]
  | some a =>
    by_cases h401 : a.status = 401
    · by_cases hw : a.www = some none
      · have : loginCouch E user none (some a) = .panic := by
          rw [loginCouch, if_neg (by omega), if_pos h401, hw]
        rw [this]
        refine ⟨fun page done => ⟨fun h => (by cases h), ?_⟩, ⟨fun h => (by cases h), ?_⟩⟩
        · rintro ⟨b, ⟨hb, _, hn, _⟩, _⟩; cases hb; exact absurd hw hn
        · rintro ⟨b, ⟨hb, _, hn, _⟩, _⟩; cases hb; exact absurd hw hn
      · have heq : loginCouch E user none (some a) =
            (if contains wOtp ((a.www.bind id).elim [] E.lower) || contains wOneTime (E.lower a.body) then
              match E.otpIn a.body with
              | (some au, some du) => .ok (.webOtp au du)
              | _ => .ok .classicOtp
            else if contains wBasic ((a.www.bind id).elim [] E.lower) then .err .incorrectPassword
            else if contains wBearer ((a.www.bind id).elim [] E.lower) then .err .invalidToken
            else .err (.status a.body)) := by
          rw [loginCouch, if_neg (by omega), if_pos h401]
          split
          · rename_i h; exact absurd h hw
          · rfl
        rw [heq]
        by_cases hs : NeedsOtp E (some a) a
        · rw [if_pos ((otp_said hw).2 (.inl hs))]
          rcases ho : E.otpIn a.body with ⟨x, y⟩
          have key : ∀ page done, OtpPages E a page done ↔ x = some page ∧ y = some done := by
            intro page done
            unfold OtpPages
            rw [ho, Prod.mk.injEq]
          have hb : ∀ P : Answer → Prop, (∃ b, NeedsOtp E (some a) b ∧ P b) ↔ P a := by
            intro P
            constructor
            · rintro ⟨b, hb, hp⟩
              cases hb.1
              exact hp
            · intro hp; exact ⟨a, hs, hp⟩
          refine ⟨fun page done => ?_, ?_⟩
          · rw [hb, key]
            cases x <;> cases y <;> simp
          · rw [hb (fun b => ∀ page done, ¬ OtpPages E b page done)]
            simp only [key]
            cases x <;> cases y <;> simp
        · have hnot : ¬ (contains wOtp ((a.www.bind id).elim [] E.lower) || contains wOneTime (E.lower a.body)) = true := by
            intro h
            rcases (otp_said hw).1 h with h | ⟨h, _⟩
            · exact hs h
            · exact h h401
          rw [if_neg hnot]
          have hno : ∀ b, ¬ NeedsOtp E (some a) b := by
            intro b hb
            have := hb.1
            cases this
            exact hs hb
          refine ⟨fun page done => ⟨fun h => ?_, fun ⟨b, hb, _⟩ => absurd hb (hno b)⟩, ⟨fun h => ?_, fun ⟨b, hb, _⟩ => absurd hb (hno b)⟩⟩
          · split at h
            · cases h
            · split at h <;> cases h
          · split at h
            · cases h
            · split at h <;> cases h
    · have hno : ∀ b, ¬ NeedsOtp E (some a) b := by
        rintro b ⟨hb, h, _⟩
        cases hb
        exact h401 h
      have hne : ∀ c, loginCouch E user none (some a) = .ok c → ∃ t, c = .token t := by
        intro c h
        rw [loginCouch] at h
        split at h
        · cases h
        · split at h
          · cases h
          · cases hb : E.tokenIn a.body with
            | none => rw [hb] at h; cases h
            | some t => rw [hb] at h; cases h; exact ⟨t, rfl⟩
      refine ⟨fun page done => ⟨fun h => ?_, fun ⟨b, hb, _⟩ => absurd hb (hno b)⟩, ⟨fun h => ?_, fun ⟨b, hb, _⟩ => absurd hb (hno b)⟩⟩
      · obtain ⟨t, ht⟩ := hne _ h; cases ht
      · obtain ⟨t, ht⟩ := hne _ h; cases ht

theorem otpFlow_iff {u p : Str} {otp : Option Str} {answers : List (Option Answer)} {t : Str} :
    (otpFlow E u p otp answers).1 = .ok t ↔ ∃ o a rest, otp = some o ∧ E.headerOk o = true ∧ answers = a :: rest ∧ Accepted E a t := by
  unfold otpFlow
  cases otp with
  | none => simp
  | some o =>
    dsimp only
    by_cases hh : E.headerOk o = true
    · rw [if_pos hh]
      cases answers with
      | nil => simp
      | cons a rest =>
        dsimp only
        constructor
        · intro h
          cases hc : loginCouch E u (some o) a with
          | ok c =>
            rw [hc] at h
            cases c with
            | token t' =>
              simp only [Res.ok.injEq] at h
              subst h
              exact ⟨o, a, rest, rfl, hh, rfl, loginCouch_token.1 hc⟩
            | webOtp x y => cases h
            | classicOtp => cases h
          | err e => rw [hc] at h; cases h
          | panic => rw [hc] at h; cases h
          | waiting => rw [hc] at h; cases h
        · rintro ⟨o', a', rest', h1, _, h3, h4⟩
          cases h1
          cases h3
          rw [loginCouch_token.2 h4]
    · rw [if_neg hh]
      constructor
      · intro h; cases h
      · rintro ⟨o', _, _, h1, h2, _⟩; cases h1; exact absurd h2 hh

theorem legacyFlow_iff {ty : Typed} {answers : List (Option Answer)} {t : Str} : (legacyFlow E ty answers).1 = .ok t ↔
    ∃ u p a rest, ty.user = some u ∧ ty.pass = some p ∧ answers = a :: rest ∧
      (Accepted E a t ∨ (∃ b page done, NeedsOtp E a b ∧ OtpPages E b page done ∧ E.opens page = true ∧ Polled E rest t) ∨
        ∃ b o a' rest', NeedsOtp E a b ∧ (∀ page done, ¬ OtpPages E b page done) ∧ ty.otp = some o ∧ E.headerOk o = true ∧
          rest = a' :: rest' ∧ Accepted E a' t) := by
  unfold legacyFlow
  cases hu : ty.user with
  | none => simp
  | some u =>
    cases hp : ty.pass with
    | none => simp
    | some p =>
      dsimp only
      cases answers with
      | nil => simp
      | cons a rest =>
        dsimp only
        constructor
        · intro h
          refine ⟨u, p, a, rest, rfl, rfl, rfl, ?_⟩
          cases hc : loginCouch E u none a with
          | ok c =>
            rw [hc] at h
            cases c with
            | token t' =>
              simp only [Res.ok.injEq] at h
              subst h
              exact .inl (loginCouch_token.1 hc)
            | webOtp page done =>
              obtain ⟨b, h1, h2⟩ := (loginCouch_otp.1 page done).1 hc
              dsimp only at h
              split at h
              · rename_i ho
                exact .inr (.inl ⟨b, page, done, h1, h2, ho, poll_iff.1 h⟩)
              · cases h
            | classicOtp =>
              obtain ⟨b, h1, h2⟩ := loginCouch_otp.2.1 hc
              obtain ⟨o, a', rest', g1, g2, g3, g4⟩ := otpFlow_iff.1 h
              exact .inr (.inr ⟨b, o, a', rest', h1, h2, g1, g2, g3, g4⟩)
          | err e => rw [hc] at h; cases h
          | panic => rw [hc] at h; cases h
          | waiting => rw [hc] at h; cases h
        · rintro ⟨u', p', a', rest', h1, h2, h3, h⟩
          cases h1; cases h2; cases h3
          rcases h with h | ⟨b, page, done, h1, h2, h3, h4⟩ | ⟨b, o, a', rest', h1, h2, h3, h4, h5, h6⟩
          · rw [loginCouch_token.2 h]
          · rw [(loginCouch_otp.1 page done).2 ⟨b, h1, h2⟩]
            dsimp only
            rw [if_pos h3]
            exact poll_iff.2 h4
          · rw [loginCouch_otp.2.2 ⟨b, h1, h2⟩]
            exact otpFlow_iff.2 ⟨o, a', rest', h3, h4, h5, h6⟩

/-! ### why a login fails -/

/-- the reasons a server can give for refusing user and password -/
def Reason (e : Err) : Prop := (∃ u, e = .noSuchUser u) ∨ e = .otpRequired ∨ e = .incorrectPassword ∨ e = .invalidToken

theorem www_within {b : Answer} {pat : Str} (hp : pat ≠ []) (hw : b.www ≠ some none) :
    contains pat ((b.www.bind id).elim [] E.lower) = true ↔ ∃ w, b.www = some (some w) ∧ Within pat (E.lower w) := by
  rw [contains_iff]
  cases h : b.www with
  | none =>
    constructor
    · rintro ⟨pre, post, h⟩
      exfalso
      exact hp (List.append_eq_nil_iff.1 (List.append_eq_nil_iff.1 h.symm).2).1
    · rintro ⟨w, hw, _⟩; cases hw
  | some x =>
    cases x with
    | none => exact absurd h hw
    | some w =>
      constructor
      · intro h; exact ⟨w, rfl, h⟩
      · rintro ⟨w', hw', h⟩; cases hw'; exact h

theorem loginCouch_err {user : Str} {otp : Option Str} {a : Option Answer} {e : Err} (he : Reason e) :
    loginCouch E user otp a = .err e ↔ Refused E user otp.isSome a e := by
  cases a with
  | none =>
    constructor
    · intro h
      simp only [loginCouch, Res.err.injEq] at h
      subst h
      simp [Reason] at he
    · intro h
      cases h with
      | again _ h => cases h.1
  | some b =>
    rw [loginCouch]
    by_cases h400 : b.status = 400
    · rw [if_pos h400]
      constructor
      · intro h; cases h; exact .unknown h400
      · intro h
        cases h with
        | unknown => rfl
        | again _ h => obtain ⟨h1, h2, _⟩ := h; cases h1; omega
        | wrong h => omega
        | token h => omega
    · rw [if_neg h400]
      by_cases h401 : b.status = 401
      · rw [if_pos h401]
        by_cases hw : b.www = some none
        · rw [hw]
          constructor
          · intro h; cases h
          · intro h
            cases h with
            | unknown h => omega
            | again _ h => obtain ⟨h1, _, h2, _⟩ := h; cases h1; exact absurd hw h2
            | wrong _ h => rw [hw] at h; cases h
            | token _ h => rw [hw] at h; cases h
        · split
          · rename_i h; exact absurd h hw
          dsimp only
          have hotp := otp_said (E := E) hw
          have hbas := www_within (E := E) (pat := wBasic) (by decide) hw
          have hbea := www_within (E := E) (pat := wBearer) (by decide) hw
          by_cases hn : NeedsOtp E (some b) b
          · rw [if_pos (hotp.2 (.inl hn))]
            cases otp with
            | none =>
              rw [if_pos (by rfl)]
              constructor
              · intro h; split at h <;> cases h
              · intro h
                cases h with
                | unknown h => omega
                | again h => cases h
                | wrong _ _ _ h => exact absurd hn h
                | token _ _ _ _ h => exact absurd hn h
            | some o =>
              rw [if_neg (by simp)]
              constructor
              · intro h; cases h; exact .again rfl hn
              · intro h
                cases h with
                | unknown h => omega
                | again => rfl
                | wrong _ _ _ h => exact absurd hn h
                | token _ _ _ _ h => exact absurd hn h
          · have hno : ¬ (contains wOtp ((b.www.bind id).elim [] E.lower) || contains wOneTime (E.lower b.body)) = true := by
              intro h
              rcases hotp.1 h with h | ⟨h, _⟩
              · exact hn h
              · exact h h401
            rw [if_neg hno]
            have hag : ∀ {a : Option Answer} {b' : Answer}, a = some b → ¬ NeedsOtp E a b' := by
              intro a b' ha h
              have h1 := h.1
              rw [ha] at h1
              cases h1
              exact hn (ha ▸ h)
            by_cases hb : contains wBasic ((b.www.bind id).elim [] E.lower) = true
            · rw [if_pos hb]
              obtain ⟨w, w1, w2⟩ := hbas.1 hb
              constructor
              · intro h; cases h; exact .wrong h401 w1 w2 hn
              · intro h
                cases h with
                | unknown h => omega
                | again _ h => exact absurd h (hag rfl)
                | wrong => rfl
                | token _ h1 _ h2 => rw [w1] at h1; cases h1; exact absurd w2 h2
            · rw [if_neg hb]
              by_cases hr : contains wBearer ((b.www.bind id).elim [] E.lower) = true
              · rw [if_pos hr]
                obtain ⟨w, w1, w2⟩ := hbea.1 hr
                constructor
                · intro h; cases h
                  exact .token h401 w1 w2 (fun h => hb (hbas.2 ⟨w, w1, h⟩)) hn
                · intro h
                  cases h with
                  | unknown h => omega
                  | again _ h => exact absurd h (hag rfl)
                  | wrong _ h1 h2 => exact absurd (hbas.2 ⟨_, h1, h2⟩) hb
                  | token => rfl
              · rw [if_neg hr]
                constructor
                · intro h
                  cases h
                  simp [Reason] at he
                · intro h
                  cases h with
                  | unknown h => omega
                  | again _ h => exact absurd h (hag rfl)
                  | wrong _ h1 h2 => exact absurd (hbas.2 ⟨_, h1, h2⟩) hb
                  | token _ h1 h2 => exact absurd (hbea.2 ⟨_, h1, h2⟩) hr
      · rw [if_neg h401]
        constructor
        · intro h
          split at h
          · cases h
            simp [Reason] at he
          · split at h
            · cases h
              simp [Reason] at he
            · cases h
        · intro h
          cases h with
          | unknown h => omega
          | again _ h => obtain ⟨h1, h2, _⟩ := h; cases h1; omega
          | wrong h => omega
          | token h => omega

theorem fetchDone_err {a : Option Answer} {e : Err} (h : fetchDone E a = .err e) : ¬ Reason e := by
  intro he
  cases a with
  | none => cases h; simp [Reason] at he
  | some a =>
    rw [fetchDone] at h
    split at h
    · split at h <;> cases h
      simp [Reason] at he
    · split at h
      · split at h
        · cases h; simp [Reason] at he
        · cases h
        · split at h <;> cases h
      · cases h; simp [Reason] at he

theorem poll_err {url : Str} {answers : List (Option Answer)} {e : Err} (h : (poll E url answers).1 = .err e) : ¬ Reason e := by
  induction answers with
  | nil => cases h
  | cons a rest ih =>
    rw [poll] at h
    cases hf : fetchDone E a with
    | ok x =>
      rw [hf] at h
      cases x with
      | token t => cases h
      | wait n => exact ih h
    | err e' => rw [hf] at h; cases h; exact fetchDone_err hf
    | panic => rw [hf] at h; cases h
    | waiting => rw [hf] at h; cases h

/-- **C66**, failures: logging in with user and password fails with "no such user", "one-time password required", "incorrect
password" or "invalid token" exactly if the server says so: to the user and the password, or, after it asked for a one-time
password, to these together with the one that was typed. A one-time password is asked for once. -/
theorem C66_reasons (ty : Typed) (answers : List (Option Answer)) (e : Err) (he : Reason e) :
    (login E false none ty answers).1 = .err e ↔ ∃ u p a rest, ty.user = some u ∧ ty.pass = some p ∧ answers = a :: rest ∧
      (Refused E u false a e ∨ ∃ b o a' rest', NeedsOtp E a b ∧ (∀ page done, ¬ OtpPages E b page done) ∧ ty.otp = some o ∧
        E.headerOk o = true ∧ rest = a' :: rest' ∧ Refused E u true a' e) := by
  have hl : login E false none ty answers = legacyFlow E ty answers := rfl
  rw [hl]
  unfold legacyFlow
  have hin : (Res.err Err.input : Res Str) ≠ .err e := by
    intro h; cases h; simp [Reason] at he
  cases hu : ty.user with
  | none =>
    constructor
    · intro h; exact absurd h hin
    · rintro ⟨u, _, _, _, h, _⟩; cases h
  | some u =>
    cases hp : ty.pass with
    | none =>
      constructor
      · intro h; exact absurd h hin
      · rintro ⟨_, p, _, _, _, h, _⟩; cases h
    | some p =>
      dsimp only
      cases answers with
      | nil =>
        constructor
        · intro h; cases h
        · rintro ⟨_, _, _, _, _, _, h, _⟩; cases h
      | cons a rest =>
        dsimp only
        constructor
        · intro h
          refine ⟨u, p, a, rest, rfl, rfl, rfl, ?_⟩
          cases hc : loginCouch E u none a with
          | ok c =>
            rw [hc] at h
            cases c with
            | token t => cases h
            | webOtp page done =>
              exfalso
              dsimp only at h
              split at h
              · exact poll_err h he
              · cases h; simp [Reason] at he
            | classicOtp =>
              obtain ⟨b, h1, h2⟩ := loginCouch_otp.2.1 hc
              dsimp only at h
              unfold otpFlow at h
              cases ho : ty.otp with
              | none => rw [ho] at h; exact absurd h hin
              | some o =>
                rw [ho] at h
                dsimp only at h
                split at h
                · rename_i hh
                  cases rest with
                  | nil => cases h
                  | cons a' rest' =>
                    refine .inr ⟨b, o, a', rest', h1, h2, rfl, hh, rfl, ?_⟩
                    dsimp only at h
                    cases hc' : loginCouch E u (some o) a' with
                    | ok c =>
                      rw [hc'] at h
                      cases c with
                      | token t => cases h
                      | webOtp x y => cases h; simp [Reason] at he
                      | classicOtp => cases h; simp [Reason] at he
                    | err e' =>
                      rw [hc'] at h
                      cases h
                      exact (loginCouch_err he).1 hc'
                    | panic => rw [hc'] at h; cases h
                    | waiting => rw [hc'] at h; cases h
                · cases h
          | err e' =>
            rw [hc] at h
            cases h
            exact .inl ((loginCouch_err he).1 hc)
          | panic => rw [hc] at h; cases h
          | waiting => rw [hc] at h; cases h
        · rintro ⟨u', p', a', rest', h1, h2, h3, h⟩
          cases h1; cases h2; cases h3
          rcases h with h | ⟨b, o, a', rest', h1, h2, h3, h4, rfl, h6⟩
          · rw [(loginCouch_err (otp := none) he).2 h]
          · rw [loginCouch_otp.2.2 ⟨b, h1, h2⟩]
            dsimp only
            unfold otpFlow
            rw [h3]
            dsimp only
            rw [if_pos h4]
            rw [(loginCouch_err (otp := some o) he).2 h6]

/-- **C66**: the credentials a login ends with are exactly those on the command line or, without any, the token the server
grants: after the login page was opened and any number of "not yet" answers, or for user and password, or for these and a
one-time password. Stated for scopes that may be sent in a header. -/
theorem C66_credentials (cmd : Cmd) (ty : Typed) (answers : List (Option Answer)) (hs : ∀ s, cmd.scope = some s → E.headerOk s = true)
    (c : Stored) : (credentials E cmd ty answers).1 = .ok c ↔ Gives E ty answers cmd c := by
  unfold credentials
  cases h1 : cmd.token with
  | some t =>
    constructor
    · intro h; cases h; exact .token h1
    · intro h
      cases h <;> simp_all
  | none =>
    cases h2 : cmd.username with
    | some u =>
      constructor
      · intro h; cases h; exact .user h1 h2
      · intro h
        cases h <;> simp_all
    | none =>
      cases h3 : cmd.legacyToken with
      | some l =>
        constructor
        · intro h; cases h; exact .legacyToken h1 h2 h3
        · intro h
          cases h <;> simp_all
      | none =>
        have hsc : cmd.scope.all E.headerOk = true := by
          cases hc : cmd.scope with
          | none => rfl
          | some s => simpa using hs s hc
        dsimp only
        unfold login
        rw [if_pos hsc]
        cases hw : cmd.web with
        | true =>
          rw [if_pos rfl]
          constructor
          · intro h
            cases hf : (webFlow E answers).1 with
            | ok t =>
              rw [hf] at h
              cases h
              obtain ⟨a, rest, page, done, g1, g2, g3, g4⟩ := webFlow_iff.1 hf
              exact .web h1 h2 h3 hw g1 g2 g3 g4
            | err e => rw [hf] at h; cases h
            | panic => rw [hf] at h; cases h
            | waiting => rw [hf] at h; cases h
          · intro h
            cases h with
            | token h => rw [h1] at h; cases h
            | user _ h => rw [h2] at h; cases h
            | legacyToken _ _ h => rw [h3] at h; cases h
            | web _ _ _ _ g1 g2 g3 g4 => rw [webFlow_iff.2 ⟨_, _, _, _, g1, g2, g3, g4⟩]
            | password _ _ _ h => rw [hw] at h; cases h
            | webOtp _ _ _ h => rw [hw] at h; cases h
            | otp _ _ _ h => rw [hw] at h; cases h
        | false =>
          rw [if_neg (by decide)]
          constructor
          · intro h
            cases hf : (legacyFlow E ty answers).1 with
            | ok t =>
              rw [hf] at h
              cases h
              obtain ⟨u, p, a, rest, g1, g2, g3, g⟩ := legacyFlow_iff.1 hf
              rcases g with g | ⟨b, page, done, k1, k2, k3, k4⟩ | ⟨b, o, a', rest', k1, k2, k3, k4, k5, k6⟩
              · exact .password h1 h2 h3 hw g1 g2 g3 g
              · exact .webOtp h1 h2 h3 hw g1 g2 g3 k1 k2 k3 k4
              · exact .otp h1 h2 h3 hw g1 g2 k3 k4 (by rw [g3, k5]) k1 k2 k6
            | err e => rw [hf] at h; cases h
            | panic => rw [hf] at h; cases h
            | waiting => rw [hf] at h; cases h
          · intro h
            cases h with
            | token h => rw [h1] at h; cases h
            | user _ h => rw [h2] at h; cases h
            | legacyToken _ _ h => rw [h3] at h; cases h
            | web _ _ _ h => rw [hw] at h; cases h
            | password _ _ _ _ g1 g2 g3 g4 => rw [legacyFlow_iff.2 ⟨_, _, _, _, g1, g2, g3, .inl g4⟩]
            | webOtp _ _ _ _ g1 g2 g3 k1 k2 k3 k4 =>
              rw [legacyFlow_iff.2 ⟨_, _, _, _, g1, g2, g3, .inr (.inl ⟨_, _, _, k1, k2, k3, k4⟩)⟩]
            | otp _ _ _ _ g1 g2 k3 k4 g3 k1 k2 k6 =>
              rw [legacyFlow_iff.2 ⟨_, _, _, _, g1, g2, g3, .inr (.inr ⟨_, _, _, _, k1, k2, k3, k4, rfl, k6⟩)⟩]

/-! ### requests and waiting -/

theorem poll_requests {url : Str} {answers : List (Option Answer)} {r : Req} (h : r ∈ (poll E url answers).2.1) : r = .done url := by
  induction answers with
  | nil => simpa [poll] using h
  | cons a rest ih =>
    rw [poll] at h
    split at h
    · simpa using h
    · rcases List.mem_cons.1 h with h | h
      · exact h
      · exact ih h
    all_goals simpa using h

/-- **C66**: while the server says "not yet", it is asked again at the same address, after the time it said. -/
theorem C66_waits (url : Str) (ws rest : List (Option Answer)) (ns : List Nat) (h : List.Forall₂ (Pending E) ws ns) :
    poll E url (ws ++ rest) = ((poll E url rest).1, ws.map (fun _ => Req.done url) ++ (poll E url rest).2.1,
      ns.sum + (poll E url rest).2.2) := by
  induction h with
  | nil => simp
  | @cons a n ws ns h1 _ ih =>
    obtain ⟨b, r, e1, e2, e3, e4⟩ := h1
    subst e1
    have : fetchDone E (some b) = .ok (.wait n) := by
      unfold fetchDone
      simp [e2, e3, e4]
    rw [List.cons_append, poll, this]
    dsimp only
    rw [ih]
    simp [Nat.add_assoc]

/-- **C66**: what is sent. With credentials on the command line nothing is. Otherwise the user name and the password that
were typed go to the registry and nowhere else, the one-time password with them, and the address that is asked for the
token is the one the registry named in its first answer. -/
theorem C66_requests (cmd : Cmd) (ty : Typed) (answers : List (Option Answer)) (r : Req) (h : r ∈ (credentials E cmd ty answers).2) :
    cmd.token = none ∧ cmd.username = none ∧ cmd.legacyToken = none ∧
    ((r = .web ∧ cmd.web = true) ∨
      (∃ u p o, r = .couch u p o ∧ cmd.web = false ∧ ty.user = some u ∧ ty.pass = some p ∧ (o = none ∨ o = ty.otp)) ∨
      ∃ url a rest, r = .done url ∧ answers = a :: rest ∧ ((cmd.web = true ∧ ∃ page, Started E a page url) ∨
        (cmd.web = false ∧ ∃ b page, NeedsOtp E a b ∧ OtpPages E b page url))) := by
  unfold credentials at h
  cases h1 : cmd.token with
  | some t => rw [h1] at h; simp at h
  | none =>
    cases h2 : cmd.username with
    | some u => rw [h1, h2] at h; simp at h
    | none =>
      cases h3 : cmd.legacyToken with
      | some l => rw [h1, h2, h3] at h; simp at h
      | none =>
        refine ⟨rfl, rfl, rfl, ?_⟩
        rw [h1, h2, h3] at h
        dsimp only at h
        unfold login at h
        split at h
        · cases hw : cmd.web with
          | true =>
            rw [hw, if_pos rfl] at h
            cases answers with
            | nil =>
              rw [webFlow, List.mem_singleton] at h
              exact .inl ⟨h, rfl⟩
            | cons a rest =>
              rw [webFlow] at h
              cases hl : loginWeb E a with
              | ok p =>
                rw [hl] at h
                obtain ⟨page, done⟩ := p
                dsimp only at h
                split at h
                · rcases List.mem_cons.1 h with h | h
                  · exact .inl ⟨h, rfl⟩
                  · exact .inr (.inr ⟨done, a, rest, poll_requests h, rfl, .inl ⟨rfl, page, loginWeb_iff.1 hl⟩⟩)
                · rw [List.mem_singleton] at h; exact .inl ⟨h, rfl⟩
              | err e => rw [hl] at h; exact .inl ⟨List.mem_singleton.1 h, rfl⟩
              | panic => rw [hl] at h; exact .inl ⟨List.mem_singleton.1 h, rfl⟩
              | waiting => rw [hl] at h; exact .inl ⟨List.mem_singleton.1 h, rfl⟩
          | false =>
            rw [hw, if_neg (by decide)] at h
            unfold legacyFlow at h
            cases hu : ty.user with
            | none => rw [hu] at h; simp at h
            | some u =>
              cases hp : ty.pass with
              | none => rw [hu, hp] at h; simp at h
              | some p =>
                rw [hu, hp] at h
                dsimp only at h
                have one : ∀ r, r ∈ [Req.couch u p none] → (r = .web ∧ false = true) ∨
                    (∃ u' p' o, r = .couch u' p' o ∧ false = false ∧ some u = some u' ∧ some p = some p' ∧ (o = none ∨ o = ty.otp)) ∨
                    ∃ url a rest, r = .done url ∧ answers = a :: rest ∧ ((false = true ∧ ∃ page, Started E a page url) ∨
                      (false = false ∧ ∃ b page, NeedsOtp E a b ∧ OtpPages E b page url)) := by
                  intro r hr
                  exact .inr (.inl ⟨u, p, none, List.mem_singleton.1 hr, rfl, rfl, rfl, .inl rfl⟩)
                cases answers with
                | nil => exact one r h
                | cons a rest =>
                  dsimp only at h
                  cases hc : loginCouch E u none a with
                  | ok c =>
                    rw [hc] at h
                    cases c with
                    | token t => exact one r h
                    | webOtp au du =>
                      obtain ⟨b, g1, g2⟩ := (loginCouch_otp.1 au du).1 hc
                      dsimp only at h
                      split at h
                      · rcases List.mem_cons.1 h with h | h
                        · exact one r (List.mem_singleton.2 h)
                        · exact .inr (.inr ⟨du, a, rest, poll_requests h, rfl, .inr ⟨rfl, b, au, g1, g2⟩⟩)
                      · exact one r h
                    | classicOtp =>
                      rcases List.mem_cons.1 h with h | h
                      · exact one r (List.mem_singleton.2 h)
                      · unfold otpFlow at h
                        cases ho : ty.otp with
                        | none => rw [ho] at h; simp at h
                        | some o =>
                          rw [ho] at h
                          dsimp only at h
                          have two : ∀ r, r ∈ [Req.couch u p (some o)] → (r = .web ∧ false = true) ∨
                              (∃ u' p' o', r = .couch u' p' o' ∧ false = false ∧ some u = some u' ∧ some p = some p' ∧
                                (o' = none ∨ o' = some o)) ∨
                              ∃ url a' rest', r = .done url ∧ a :: rest = a' :: rest' ∧ ((false = true ∧ ∃ page, Started E a' page url) ∨
                                (false = false ∧ ∃ b page, NeedsOtp E a' b ∧ OtpPages E b page url)) := by
                            intro r hr
                            exact .inr (.inl ⟨u, p, some o, List.mem_singleton.1 hr, rfl, rfl, rfl, .inr rfl⟩)
                          split at h
                          · split at h
                            · exact two r h
                            · split at h
                              all_goals exact two r h
                          · simp at h
                  | err e => rw [hc] at h; exact one r h
                  | panic => rw [hc] at h; exact one r h
                  | waiting => rw [hc] at h; exact one r h
        · split at h
          · simp at h
          · split at h
            all_goals simp at h

/-! ### the command -/

theorem collect_get (num : Int → Str) (d : KDoc) (n : Str) : (collect num d).get? n =
    ((((KDoc.get d kOptions).bind KNode.children).getD []).reverse.find? fun k => k.name = n).map (nodeValue num) := by
  unfold collect
  rw [show optionsWord = kOptions from rfl]
  cases h1 : KDoc.get d kOptions with
  | none => rfl
  | some o =>
    dsimp only [Option.bind_some]
    cases h2 : o.children with
    | none => rfl
    | some oc =>
      dsimp only [Option.getD_some]
      rw [ofPairs_get, nodePairs_map, ← List.map_reverse, List.find?_map, Option.map_map]
      rfl

/-- an option other than this section's is what it is among the other options -/
theorem collect_other (num : Int → Str) {sec n : Str} (hn : n ≠ sec) {d d' : KDoc} (h : otherOptions sec d = otherOptions sec d') :
    (collect num d).get? n = (collect num d').get? n := by
  have key : ∀ d, (collect num d).get? n = ((otherOptions sec d).reverse.find? fun k => k.name = n).map (nodeValue num) := by
    intro d
    rw [collect_get]
    unfold otherOptions
    rw [← List.filter_reverse, List.find?_filter]
    congr 2
    funext k
    by_cases hk : k.name = n
    · simp [hk, hn]
    · simp [hk]
  rw [key, key, h]

theorem scoped_auth (num : Int → Str) (text : Url → Str) (s : Str) (reg : Url) (d : KDoc) :
    (collect num (setScoped text s reg d)).get? kAuth = (collect num d).get? kAuth := by
  refine collect_other num (sec := kScoped) (by decide) ?_
  unfold setScoped
  rw [otherOptions_in, otherOptions_ensure]

/-- **C66**: `oro login` either fails and leaves the configuration file as it was, or has got credentials the way it
should, and every later command that reads the file uses exactly these for the registry. Stated for files and addresses
as in C65, and scopes that may be sent in a header. -/
theorem C66_command {parse : Str → Option Url} {text : Url → Str} {num : Int → Str} (reg : Url) (ht : parse (text reg) = some reg)
    (hdash : parse ['-'] = none) (hu : Address (text reg)) (cmd : Cmd) (hs : ∀ s, cmd.scope = some s → E.headerOk s = true)
    (clientOk : Bool) (ty : Typed) (answers : List (Option Answer)) (d : KDoc) (hd : OneAuth d)
    (ha : ∀ l, sectionNodes kAuth d = some l → ∀ k ∈ l, Address k.name) :
    let r := loginCommand E parse text reg cmd clientOk ty answers (some d)
    (r.1 ≠ .ok () ∧ r.2.2 = some d) ∨ ∃ c d', r.1 = .ok () ∧ Gives E ty answers cmd c ∧ r.2.2 = some d' ∧
      ∀ later : LaterCommand kAuth (collect num d'), ∃ creds, commandCreds parse later.vals = .ok (some creds) ∧
        creds.get? (nerf reg) = some (meaning c) := by
  unfold loginCommand
  dsimp only
  cases clientOk with
  | false => exact .inl ⟨by simp, rfl⟩
  | true =>
    rw [if_pos rfl]
    rcases hc : credentials E cmd ty answers with ⟨res, rs⟩
    cases res with
    | ok c =>
      have hg := (C66_credentials cmd ty answers hs c).1 (by rw [hc])
      refine .inr ⟨c, _, rfl, hg, rfl, ?_⟩
      cases cmd.scope with
      | none => exact fun later => C65_login_then_use reg ht hdash hu c d hd ha later
      | some s => exact fun later => use_core reg ht hdash hu c d hd ha _ (collect_wf _) (scoped_auth num text s reg _) later
    | err e => exact .inl ⟨by simp, rfl⟩
    | panic => exact .inl ⟨by simp, rfl⟩
    | waiting => exact .inl ⟨by simp, rfl⟩

/-- C66 where there are two ways to say it: a successful login with a scope also makes the registry the scope's. -/
theorem C66_scope {parse : Str → Option Url} {text : Url → Str} (reg : Url) (cmd : Cmd) (s : Str) (hs : cmd.scope = some s)
    (clientOk : Bool) (ty : Typed) (answers : List (Option Answer)) (d d' : KDoc)
    (h : (loginCommand E parse text reg cmd clientOk ty answers (some d)).1 = .ok ())
    (h' : (loginCommand E parse text reg cmd clientOk ty answers (some d)).2.2 = some d') :
    ∃ c, (credentials E cmd ty answers).1 = .ok c ∧ d' = setScoped text s reg (setCreds parse text reg c d) := by
  unfold loginCommand at h h'
  dsimp only at h h'
  cases clientOk with
  | false => simp at h
  | true =>
    rw [if_pos rfl] at h h'
    rcases hc : credentials E cmd ty answers with ⟨res, rs⟩
    rw [hc] at h h'
    cases res with
    | ok c => rw [hs] at h'; exact ⟨c, rfl, (Option.some.inj h').symm⟩
    | err e => simp at h
    | panic => simp at h
    | waiting => simp at h

/-- **C66 fails** where the server's "not yet" does not say a number of seconds (HTTP also allows a date): the program
crashes. -/
theorem C66_retry_fails (cmd : Cmd) (ty : Typed) (h1 : cmd.token = none) (h2 : cmd.username = none) (h3 : cmd.legacyToken = none)
    (hw : cmd.web = true) (hs : ∀ s, cmd.scope = some s → E.headerOk s = true) (a : Option Answer) (page done : Str)
    (ha : Started E a page done) (ho : E.opens page = true) (ws rest : List (Option Answer)) (hws : ∀ w ∈ ws, ∃ n, Pending E w n)
    (b : Answer) (hb : b.status = 202) (r : Str) (hr : b.retry = some (some r)) (hn : E.number r = none) :
    (credentials E cmd ty (a :: (ws ++ some b :: rest))).1 = .panic := by
  have hp : (poll E done (ws ++ some b :: rest)).1 = .panic := by
    induction ws with
    | nil =>
      have : fetchDone E (some b) = .panic := by unfold fetchDone; simp [hb, hr, hn]
      rw [List.nil_append, poll, this]
    | cons w ws ih =>
      obtain ⟨n, b', r', e1, e2, e3, e4⟩ := hws w List.mem_cons_self
      subst e1
      have : fetchDone E (some b') = .ok (.wait n) := by unfold fetchDone; simp [e2, e3, e4]
      rw [List.cons_append, poll, this]
      exact ih fun w hw => hws w (List.mem_cons_of_mem _ hw)
  have hsc : cmd.scope.all E.headerOk = true := by
    cases hc : cmd.scope with
    | none => rfl
    | some s => simpa using hs s hc
  unfold credentials login
  rw [h1, h2, h3]
  dsimp only
  rw [if_pos hsc, hw, if_pos rfl, webFlow, (loginWeb_iff (p := (page, done))).2 ha]
  dsimp only
  rw [if_pos ho]
  dsimp only
  rw [hp]

/-- **C66 fails** where the server's refusal says how to authenticate in a header that is not plain text: the program
crashes. -/
theorem C66_www_fails (user : Str) (otp : Option Str) (b : Answer) (hb : b.status = 401) (hw : b.www = some none) :
    loginCouch E user otp (some b) = .panic := by
  rw [loginCouch, if_neg (by omega), if_pos hb, hw]

/-- **C66 fails** where there is no configuration file yet: nobody can log in, whatever credentials they have. (The first
run of any command makes one, but not in CI.) -/
theorem C66_file_fails (parse : Str → Option Url) (text : Url → Str) (reg : Url) (cmd : Cmd) (clientOk : Bool) (ty : Typed)
    (answers : List (Option Answer)) : loginCommand E parse text reg cmd clientOk ty answers none = (.err .file, [], none) := rfl

/-! ### logging out -/

/-- **C67**: `oro logout` either fails and leaves the file as it was, or the credentials of the registry are gone and
everything else is as it was. -/
theorem C67_cleared (b : B64) (parse : Str → Option Url) (reg : Url) (clientOk answered : Bool) (file : Option KDoc) :
    let r := logoutCommand b parse reg clientOk answered file
    (r.1 ≠ .ok () ∧ r.2.2 = file) ∨ ∃ d d', r.1 = .ok () ∧ file = some d ∧ r.2.2 = some d' ∧
      (∀ l, sectionNodes kAuth d' = some l → ∀ k ∈ l, ∀ u, parse k.name = some u → nerf u ≠ nerf reg) ∧
      (∀ other, nerf other ≠ nerf reg → getCreds parse b other d' = getCreds parse b other d) ∧
      otherOptions kAuth d' = otherOptions kAuth d ∧
      d'.filter (fun k => k.name ≠ kOptions) = d.filter fun k => k.name ≠ kOptions := by
  unfold logoutCommand
  dsimp only
  cases clientOk with
  | false => exact .inl ⟨by simp, rfl⟩
  | true =>
    rw [if_pos rfl]
    cases file with
    | none => exact .inl ⟨by simp, rfl⟩
    | some d =>
      have hclear : ∀ l, sectionNodes kAuth (clearCreds parse reg d) = some l → ∀ k ∈ l, ∀ u, parse k.name = some u →
          nerf u ≠ nerf reg := by
        intro l hl k hk u hu
        unfold clearCreds at hl
        cases hs : sectionNodes kAuth d with
        | none => rw [hs] at hl; dsimp only at hl; rw [hs] at hl; cases hl
        | some l0 =>
          rw [hs] at hl
          dsimp only at hl
          split at hl
          · rw [section_removed] at hl; cases hl
          · rw [section_in, hs] at hl
            cases hl
            have := (List.mem_filter.1 hk).2
            rw [hu] at this
            simpa using this
      have hx := C39_clear (parse := parse) b reg d
      dsimp only
      split
      · rename_i t _
        cases answered with
        | false => exact .inl ⟨by simp, rfl⟩
        | true => exact .inr ⟨d, _, rfl, rfl, rfl, hclear, hx.2⟩
      · exact .inr ⟨d, _, rfl, rfl, rfl, hclear, hx.2⟩

/-- what a later command's credentials come from, for an auth section with these nodes -/
theorem creds_from {parse : Str → Option Url} {num : Int → Str} (L : List KNode) (hLA : ∀ k ∈ L, AuthNode k)
    (hnd : ∃ k ∈ L, k.name ≠ dash) (had : ∀ k ∈ L, Address k.name) (file : IMap Str CVal) (hwf : file.WF)
    (hfile : file.get? kAuth = some (nodeValue num (.mk kAuth [] (some L)))) (later : LaterCommand kAuth file) (creds : IMap Str Cred)
    (h : commandCreds parse later.vals = .ok (some creds)) (key : Str) (c : Cred) (hc : creds.get? key = some c) :
    ∃ k ∈ L, ∃ u, parse k.name = some u ∧ nerf u = key := by
  unfold commandCreds at h
  have hv := later_section (num := num) L hLA hnd file hwf hfile later
  have hread : ∀ s ∈ later.vals.filterMap id, ∃ k ∈ L, ∃ p : Str × Str, Startup.nested s = .ok (k.name, p.1, p.2) := by
    intro s hs
    obtain ⟨q, hq, p, hp, rfl⟩ := (hv s).1 hs
    obtain ⟨k, hk, rfl⟩ := List.mem_map.1 (mem_ofPairs hq)
    obtain ⟨key, v, he, hkey⟩ := (hLA k hk).text _ (mem_authProps hp)
    have : p.1 = key := by simpa using congrArg Prod.fst he
    exact ⟨k, hk, p, Startup.C51_nested [] k.name p.1 p.2 (by simp) (had k hk).1 (by
      simp only [List.nil_append, List.mem_append, not_or]
      exact ⟨(had k hk).2, this ▸ hkey⟩)⟩
  obtain ⟨es, hes, hmem⟩ := readAll_ok (f := Startup.nested) (vals := later.vals.filterMap id) (by
    intro s hs
    obtain ⟨k, _, p, hp⟩ := hread s hs
    exact ⟨_, hp⟩)
  rw [hes] at h
  have h' : clientCreds parse es = some creds := by simpa using h
  unfold clientCreds at h'
  rcases fold_source es [] creds h' key c hc with h0 | ⟨e, he, u, hu, hn, _⟩
  · simp at h0
  · obtain ⟨s, hs, hse⟩ := (hmem e).1 he
    obtain ⟨k, hk, p, hp⟩ := hread s hs
    rw [hp] at hse
    cases hse
    exact ⟨k, hk, u, hu, hn⟩

/-- **C67**: after `oro logout` no later command that reads the file has credentials for the registry. Stated for files and
addresses as in C65. -/
theorem C67_later (b : B64) {parse : Str → Option Url} {num : Int → Str} (hdash : parse ['-'] = none) (reg : Url)
    (clientOk answered : Bool) (d d' : KDoc) (hd : OneAuth d) (ha : ∀ l, sectionNodes kAuth d = some l → ∀ k ∈ l, Address k.name)
    (h : (logoutCommand b parse reg clientOk answered (some d)).1 = .ok ())
    (h' : (logoutCommand b parse reg clientOk answered (some d)).2.2 = some d') (later : LaterCommand kAuth (collect num d'))
    (creds : IMap Str Cred) (hcr : commandCreds parse later.vals = .ok (some creds)) : creds.get? (nerf reg) = none := by
  have hd' : d' = clearCreds parse reg d := by
    unfold logoutCommand at h h'
    cases clientOk with
    | false => simp at h
    | true =>
      rw [if_pos rfl] at h h'
      dsimp only at h h'
      split at h
      · rename_i t ht
        cases answered with
        | false => simp at h
        | true => rw [ht] at h'; exact (Option.some.inj h').symm
      · rename_i hne
        split at h'
        · rename_i t ht
          exact absurd ht (hne t)
        · exact (Option.some.inj h').symm
  subst hd'
  -- without an auth section there is nothing
  have hempty : (collect num (clearCreds parse reg d)).get? kAuth = none → creds.get? (nerf reg) = none := by
    intro hn
    have hvals := later_perm later (x := none) fun root hr => by rw [setAll_none _ _ (collect_wf _) hn, hr]
    have : later.vals = [] := by simpa using hvals
    rw [this] at hcr
    have : clientCreds parse [] = some creds := by simpa [commandCreds, readAll] using hcr
    cases this
    rfl
  cases hs : sectionNodes kAuth d with
  | none =>
    have hc : clearCreds parse reg d = d := by unfold clearCreds; rw [hs]
    refine hempty ?_
    rw [hc, collect_get]
    cases h1 : KDoc.get d kOptions with
    | none => rfl
    | some o =>
      dsimp only [Option.bind_some]
      cases h2 : o.children with
      | none => rfl
      | some oc =>
        dsimp only [Option.getD_some]
        rcases hd o oc h1 h2 with h3 | ⟨l, h3, _⟩
        · rw [← List.head?_filter, List.filter_reverse, h3]; rfl
        · unfold sectionNodes at hs
          rw [h1] at hs
          dsimp only [Option.bind_some] at hs
          rw [h2] at hs
          dsimp only [Option.bind_some] at hs
          rw [get_some_of_filter h3] at hs
          cases hs
  | some l =>
    obtain ⟨o, oc, h1, h2, h3, h4⟩ : ∃ o oc, KDoc.get d kOptions = some o ∧ o.children = some oc ∧
        oc.filter (fun s => s.name = kAuth) = [.mk kAuth [] (some l)] ∧ ∀ k ∈ l, AuthNode k := by
      unfold sectionNodes at hs
      cases h1 : KDoc.get d kOptions with
      | none => rw [h1] at hs; cases hs
      | some o =>
        rw [h1] at hs
        dsimp only [Option.bind_some] at hs
        cases h2 : o.children with
        | none => rw [h2] at hs; cases hs
        | some oc =>
          rw [h2] at hs
          dsimp only [Option.bind_some] at hs
          rcases hd o oc h1 h2 with h3 | ⟨l', h3, h4⟩
          · rw [get_none_of_filter h3] at hs; cases hs
          · rw [get_some_of_filter h3] at hs
            cases hs
            exact ⟨o, oc, rfl, h2, h3, h4⟩
    by_cases hce : cleanAuth parse reg l = []
    · refine hempty ?_
      have hc : clearCreds parse reg d = updFirst kOptions (updChildren fun oc => oc.filter fun k => k.name ≠ kAuth) d := by
        unfold clearCreds
        rw [hs]
        dsimp only
        rw [if_pos hce]
      rw [hc, collect_get, get_updFirst _ _ (name_upd _), if_pos rfl, h1]
      show ((((o.children.map fun oc => oc.filter fun k => k.name ≠ kAuth).getD []).reverse.find? fun k => k.name = kAuth).map
        (nodeValue num)) = none
      rw [h2, Option.map_some, Option.getD_some]
      have : (oc.filter fun k => decide (k.name ≠ kAuth)).reverse.find? (fun k => decide (k.name = kAuth)) = none := by
        rw [List.find?_eq_none]
        intro k hk
        rw [List.mem_reverse, List.mem_filter] at hk
        simpa using hk.2
      rw [this]
      rfl
    · have hc : clearCreds parse reg d = inSection kAuth (cleanAuth parse reg) d := by
        unfold clearCreds
        rw [hs]
        dsimp only
        rw [if_neg hce]
      have hin : ∀ k ∈ cleanAuth parse reg l, k ∈ l ∧ ∃ u, parse k.name = some u ∧ nerf u ≠ nerf reg := by
        intro k hk
        obtain ⟨hk, hf⟩ := List.mem_filter.1 hk
        refine ⟨hk, ?_⟩
        cases hpk : parse k.name with
        | none => rw [hpk] at hf; simp at hf
        | some u => rw [hpk] at hf; exact ⟨u, rfl, by simpa using hf⟩
      have hfile : (collect num (clearCreds parse reg d)).get? kAuth =
          some (nodeValue num (.mk kAuth [] (some (cleanAuth parse reg l)))) := by
        rw [hc]
        refine collect_auth (o := updChildren (updFirst kAuth (updChildren (cleanAuth parse reg))) o)
          (oc := updFirst kAuth (updChildren (cleanAuth parse reg)) oc) ?_ ?_ ?_
        · unfold inSection
          rw [get_updFirst _ _ (name_upd _), if_pos rfl, h1]
          rfl
        · show o.children.map _ = _
          rw [h2]
          rfl
        · exact filter_updFirst (name_upd _) h3
      obtain ⟨k0, hk0⟩ := List.exists_mem_of_ne_nil _ hce
      rw [← Option.not_isSome_iff_eq_none]
      intro hsome
      obtain ⟨c, hcc⟩ := Option.isSome_iff_exists.1 hsome
      obtain ⟨k, hk, u, hu, hn⟩ := creds_from (num := num) (cleanAuth parse reg l) (fun k hk => h4 k (hin k hk).1)
        ⟨k0, hk0, by
          intro h
          obtain ⟨_, u, hu, _⟩ := hin k0 hk0
          rw [h] at hu
          rw [show dash = ['-'] from rfl, hdash] at hu
          cases hu⟩ (fun k hk => ha l hs k (hin k hk).1) _ (collect_wf _) hfile later creds hcr (nerf reg) c hcc
      obtain ⟨_, u', hu', hn'⟩ := hin k hk
      rw [hu] at hu'
      cases hu'
      exact hn' hn

/-- **C67 fails** to revoke: after a token was saved by `oro login`, logging out does not ask the registry to delete it. -/
theorem C67_revoke_fails (b : B64) (parse : Str → Option Url) (text : Url → Str) (reg : Url) (ht : parse (text reg) = some reg) (t : Str)
    (d : KDoc) (clientOk answered : Bool) :
    (logoutCommand b parse reg clientOk answered (some (setCreds parse text reg (.token t) d))).2.1 = [] := by
  unfold logoutCommand
  cases clientOk with
  | false => rfl
  | true =>
    rw [if_pos rfl]
    dsimp only
    split
    · rename_i t' ht'
      exfalso
      by_cases hb : Bare kAuth d
      · unfold getCreds at ht'
        rw [C39_bare_fails reg _ d hb] at ht'
        cases ht'
      · rw [C39_readback b reg ht _ d hb] at ht'
        cases ht'
    · rfl

/-- **C67 fails** to keep secrets: after a legacy token – name and password in base64 – was saved by `oro login`, logging
out puts it into the address of a request. -/
theorem C67_leak_fails (b : B64) (parse : Str → Option Url) (text : Url → Str) (reg : Url) (ht : parse (text reg) = some reg) (t : Str)
    (d : KDoc) (hb : ¬ Bare kAuth d) (answered : Bool) :
    (logoutCommand b parse reg true answered (some (setCreds parse text reg (.legacy t) d))).2.1 = [.delete t] := by
  unfold logoutCommand
  rw [if_pos rfl]
  dsimp only
  rw [C39_readback b reg ht _ d hb]
  dsimp only
  cases answered <;> rfl

/-! ### cases that meet the hypotheses -/

/-- a library whose JSON is bare text: `t…` a token, `p` the two addresses -/
def sampleEnv : Env where
  tokenIn := fun s => match s with
    | 't' :: r => some r
    | _ => none
  pagesIn := fun s => if s = ['p'] then some (['l'], ['d']) else none
  otpIn := fun s => match s.getLast? with
    | some 'w' => (some ['l'], some ['d'])
    | _ => (none, none)
  number := fun s => if s = ['5'] then some 5 else none
  lower := id
  opens := fun _ => true
  headerOk := fun _ => true

/-- two "not yet", then a token -/
def sampleAnswers : List (Option Answer) :=
  [some ⟨200, none, none, ['p']⟩, some ⟨202, none, some (some ['5']), []⟩, some ⟨202, none, some (some ['5']), []⟩,
    some ⟨200, none, none, ['t', 'x']⟩]

example : login sampleEnv true none ⟨none, none, none⟩ sampleAnswers = (.ok ['x'], [.web, .done ['d'], .done ['d'], .done ['d']], 10) := by
  rfl

example : login sampleEnv false none ⟨some ['u'], some ['p'], some ['1']⟩
    [some ⟨401, some (some ['o','t','p']), none, []⟩, some ⟨201, none, none, ['t', 'x']⟩] =
      (.ok ['x'], [.couch ['u'] ['p'] none, .couch ['u'] ['p'] (some ['1'])], 0) := by
  rfl

example : login sampleEnv false none ⟨some ['u'], some ['p'], none⟩
    [some ⟨401, some (some ['o','t','p']), none, ['w']⟩, some ⟨200, none, none, ['t', 'x']⟩] =
      (.ok ['x'], [.couch ['u'] ['p'] none, .done ['d']], 0) := by
  rfl

/-- asked for a one-time password, and again after it was typed -/
example : (login sampleEnv false none ⟨some ['u'], some ['p'], some ['1']⟩
    [some ⟨401, some (some ['o','t','p']), none, []⟩, some ⟨401, some (some ['o','t','p']), none, []⟩]).1 = .err .otpRequired ∧
    Reason .otpRequired := ⟨rfl, .inr (.inl rfl)⟩

example : Gives sampleEnv ⟨none, none, none⟩ sampleAnswers ⟨true, none, none, none, none, none⟩ (.token ['x']) :=
  (C66_credentials _ _ _ (by intro s h; cases h) _).1 rfl

/-- logging out of one of two registries -/
example : logoutCommand ⟨id, some⟩ sampleParse ⟨[], some ['r'], none, ['/'], []⟩ true true (some (sampleDoc ['2'])) =
    (.ok (), [], some [.mk ['x'] [] none, .mk ['o','p','t','i','o','n','s'] [] (some [.leaf ['t'] ['y'], .mk ['a','u','t','h'] []
      (some [.mk ['q'] [(some ['t','o','k','e','n'], .str ['1'])] none])])]) := by
  rfl

end Login
end Oro
