import Verif.Model.Proxy
set_option linter.unusedSectionVars false
/-!
# Proxies
-/
namespace Oro
namespace Proxy

/-- the hosts that are not reached through the proxy: those of the setting, or else, if it is missing or empty, those of the
environment -/
def excluded (E : Env) (setting : Option Str) (host : Str) : Prop :=
  ∃ l, ((setting = some l ∧ l ≠ []) ∨ ((setting = none ∨ setting = some []) ∧ E.noProxy = some l)) ∧ E.covers l host = true

theorem skip_excluded (E : Env) (b : Builder) (host : Str) :
    (skipOf E b).elim false (fun l => E.covers l host) = true ↔ excluded E b.domains host := by
  unfold skipOf excluded
  cases h : b.domains with
  | none => cases E.noProxy <;> simp
  | some d =>
    dsimp only
    by_cases hd : d = []
    · subst hd
      rw [if_neg (by simp)]
      cases E.noProxy <;> simp
    · rw [if_pos hd]
      simp only [Option.elim_some, Option.some.injEq, reduceCtorEq, hd, false_and, or_false]
      constructor
      · intro h
        exact ⟨d, ⟨rfl, hd⟩, h⟩
      · rintro ⟨l, ⟨rfl, _⟩, h⟩
        exact h

/-- **C71** (a command with a proxy's address): the command fails if the address is unusable; otherwise requests to the
excluded hosts go out directly, and all others through this proxy, with the user and the password of the address if they are
written there without `%`. -/
theorem C71_via (E : Env) (proxy : Bool) (u : Str) (domains : Option Str) :
    match ofArgs E proxy (some u) domains with
    | none => ∀ a, E.parse u = some a → E.supported a = false
    | some b => ∃ a, E.parse u = some a ∧ ∀ host,
        (excluded E domains host → route E b host = .direct) ∧
        (¬ excluded E domains host → ∃ auth, route E b host = .via a.server auth ∧
          (a.pass = none → auth = none) ∧
          ∀ p, a.pass = some p → E.decode a.user = a.user → E.decode p = p → auth = some (E.decode a.user, E.decode p)) := by
  have key : ∀ b : Builder, b.domains = domains → match setUrl E u b with
    | none => ∀ a, E.parse u = some a → E.supported a = false
    | some b => ∃ a, E.parse u = some a ∧ ∀ host,
        (excluded E domains host → route E b host = .direct) ∧
        (¬ excluded E domains host → ∃ auth, route E b host = .via a.server auth ∧
          (a.pass = none → auth = none) ∧
          ∀ p, a.pass = some p → E.decode a.user = a.user → E.decode p = p → auth = some (E.decode a.user, E.decode p)) := by
    intro b hb
    unfold setUrl
    cases hp : E.parse u with
    | none => intro a ha; cases ha
    | some a =>
      dsimp only
      by_cases hs : E.supported a
      · rw [if_pos hs]
        refine ⟨a, rfl, ?_⟩
        intro host
        have hx := skip_excluded E b host
        rw [hb] at hx
        unfold route
        dsimp only
        rw [if_pos rfl]
        constructor
        · intro he
          rw [if_pos (hx.2 he)]
        · intro he
          rw [if_neg (fun h => he (hx.1 h))]
          refine ⟨_, rfl, ?_, ?_⟩
          · intro h
            rw [h]
            simp [addrAuth, h]
          · intro p h h1 h2
            rw [h, h1, h2]
      · rw [if_neg hs]
        intro a' ha'
        cases ha'
        simpa using hs
  unfold ofArgs
  cases domains with
  | none => exact key _ rfl
  | some d => exact key _ rfl

/-- **C71** (a command without a proxy's address): without `--proxy` every request goes out directly, whatever the
environment says; with it, as the system says. -/
theorem C71_none (E : Env) (proxy : Bool) (domains : Option Str) : ∃ b, ofArgs E proxy none domains = some b ∧
    ∀ host, route E b host = if proxy then .system else .direct := by
  unfold ofArgs
  cases domains <;> exact ⟨_, rfl, fun host => by cases proxy <;> rfl⟩

/-- C71 (library): a client for which nobody switched proxies on, or gave an address, uses none. -/
theorem C71_default (E : Env) (b : Builder) (cs : List Call) (hcs : ∀ c ∈ cs, ∃ d, c = .domains d)
    (h : applyAll E fresh cs = some b) (host : Str) : route E b host = .direct := by
  have key : ∀ (cs : List Call) (b0 : Builder), b0.proxy = false → (∀ c ∈ cs, ∃ d, c = .domains d) → applyAll E b0 cs = some b →
      b.proxy = false := by
    intro cs
    induction cs with
    | nil => intro b0 hb _ h; cases h; exact hb
    | cons c cs ih =>
      intro b0 hb hc h
      obtain ⟨d, rfl⟩ := hc c List.mem_cons_self
      exact ih (setDomains d b0) hb (fun c hc' => hc c (List.mem_cons_of_mem _ hc')) h
  unfold route
  rw [key cs fresh rfl hcs h]
  rfl

/-- C71 (library): any calls of the builder, in any order: a last call that switches proxies off makes every request go out
directly. -/
theorem C71_last_off (E : Env) (b b' : Builder) (cs cs' : List Call) (hcs : ∀ c ∈ cs', ∃ d, c = .domains d)
    (h : applyAll E b (cs ++ .proxy false :: cs') = some b') (host : Str) : route E b' host = .direct := by
  have h2 : ∀ (cs' : List Call) (b : Builder), b.proxy = false → (∀ c ∈ cs', ∃ d, c = .domains d) → applyAll E b cs' = some b' →
      b'.proxy = false := by
    intro cs'
    induction cs' with
    | nil => intro b hb _ h; cases h; exact hb
    | cons c cs' ih =>
      intro b hb hc h
      obtain ⟨d, rfl⟩ := hc c List.mem_cons_self
      exact ih (setDomains d b) hb (fun c hc' => hc c (List.mem_cons_of_mem _ hc')) h
  have h1 : ∀ (cs : List Call) (b : Builder), applyAll E b (cs ++ .proxy false :: cs') = some b' → b'.proxy = false := by
    intro cs
    induction cs with
    | nil =>
      intro b h
      exact h2 cs' (setProxy false b) rfl hcs h
    | cons c cs ih =>
      intro b h
      rw [List.cons_append, applyAll] at h
      obtain ⟨b1, _, hb1⟩ := Option.bind_eq_some_iff.1 h
      exact ih b1 hb1
  unfold route
  rw [h1 cs b h]
  rfl

/-- C71 (library): any calls of the builder; the last address counts, with the domains that were set last before it. -/
theorem C71_last_url (E : Env) (b b' : Builder) (cs ds cs' : List Call) (d u : Str) (hds : ∀ c ∈ ds, ∀ e, c ≠ .domains e)
    (hcs : ∀ c ∈ cs', ∃ d, c = .domains d)
    (h : applyAll E b (cs ++ .domains d :: (ds ++ .url u :: cs')) = some b') : ∃ a, E.parse u = some a ∧ ∀ host,
      (excluded E (some d) host → route E b' host = .direct) ∧
      (¬ excluded E (some d) host → ∃ auth, route E b' host = .via a.server auth) := by
  -- domains stay
  have hdom : ∀ (ds : List Call) (b b1 : Builder), (∀ c ∈ ds, ∀ e, c ≠ .domains e) → applyAll E b ds = some b1 → b1.domains = b.domains := by
    intro ds
    induction ds with
    | nil => intro b b1 _ h; cases h; rfl
    | cons c ds ih =>
      intro b b1 hc h
      rw [applyAll] at h
      obtain ⟨b2, hb2, hb3⟩ := Option.bind_eq_some_iff.1 h
      rw [ih b2 b1 (fun c hc' => hc c (List.mem_cons_of_mem _ hc')) hb3]
      cases c with
      | proxy on => cases hb2; rfl
      | domains e => exact absurd rfl (hc _ List.mem_cons_self e)
      | url u =>
        simp only [apply, setUrl] at hb2
        split at hb2
        · cases hb2
        · split at hb2
          · cases hb2; rfl
          · cases hb2
  have happ : ∀ (x y : List Call) (b : Builder), applyAll E b (x ++ y) = (applyAll E b x).bind fun b => applyAll E b y := by
    intro x
    induction x with
    | nil => intro y b; rfl
    | cons c x ih =>
      intro y b
      rw [List.cons_append, applyAll, applyAll, Option.bind_assoc]
      congr 1
      funext b
      exact ih y b
  have htail : ∀ (cs' : List Call) (b : Builder), (∀ c ∈ cs', ∃ d, c = .domains d) → applyAll E b cs' = some b' →
      b'.proxy = b.proxy ∧ b'.server = b.server := by
    intro cs'
    induction cs' with
    | nil => intro b _ h; cases h; exact ⟨rfl, rfl⟩
    | cons c cs' ih =>
      intro b hc h
      obtain ⟨d, rfl⟩ := hc c List.mem_cons_self
      exact ih (setDomains d b) (fun c hc' => hc c (List.mem_cons_of_mem _ hc')) h
  rw [happ] at h
  obtain ⟨b1, _, h⟩ := Option.bind_eq_some_iff.1 h
  rw [applyAll] at h
  simp only [apply, Option.bind_some] at h
  rw [happ] at h
  obtain ⟨b2, hb2, h⟩ := Option.bind_eq_some_iff.1 h
  have hd2 := hdom ds _ _ hds hb2
  rw [applyAll] at h
  obtain ⟨b3, hb3, h⟩ := Option.bind_eq_some_iff.1 h
  obtain ⟨ht1, ht2⟩ := htail cs' b3 hcs h
  simp only [apply, setUrl] at hb3
  split at hb3
  · cases hb3
  · rename_i a ha
    split at hb3
    · cases hb3
      refine ⟨a, ha, ?_⟩
      intro host
      have hx := skip_excluded E b2 host
      rw [hd2] at hx
      unfold route
      rw [ht1, ht2]
      dsimp only
      rw [if_pos rfl]
      constructor
      · intro he
        rw [if_pos (hx.2 he)]
      · intro he
        rw [if_neg (fun h => he (hx.1 h))]
        exact ⟨_, rfl⟩
    · cases hb3

/-- **C71 fails** (`--no-proxy`): the switch has no effect if an address is configured: requests go through the proxy
though the command line says not to use one. -/
theorem C71_flag_fails (E : Env) (u : Str) (domains : Option Str) : ofArgs E false (some u) domains = ofArgs E true (some u) domains := by
  unfold ofArgs setUrl
  cases domains <;> (cases E.parse u <;> rfl)

/-- **C71 fails** (passwords): a password with characters that must be written as `%xx` in the address is sent to the proxy
in this form, not as it is. -/
theorem C71_password_fails (E : Env) (proxy : Bool) (u : Str) (domains : Option Str) (a : Addr) (p : Str) (ha : E.parse u = some a)
    (hs : E.supported a = true) (hp : a.pass = some p) (hd : E.decode p ≠ p) (host : Str) (hx : ¬ excluded E domains host) :
    ∃ b auth, ofArgs E proxy (some u) domains = some b ∧ route E b host = .via a.server (some auth) ∧
      auth.2 ≠ E.decode p ∧ addrAuth E a = some (E.decode a.user, E.decode p) := by
  have key : ∀ b : Builder, b.domains = domains → ∃ b' auth, setUrl E u b = some b' ∧ route E b' host = .via a.server (some auth) ∧
      auth.2 ≠ E.decode p ∧ addrAuth E a = some (E.decode a.user, E.decode p) := by
    intro b hb
    have hx' := skip_excluded E b host
    rw [hb] at hx'
    unfold setUrl
    rw [ha]
    dsimp only
    rw [if_pos hs, hp]
    refine ⟨_, (a.user, p), rfl, ?_, fun h => hd h.symm, by simp [addrAuth, hp]⟩
    unfold route
    dsimp only
    rw [if_pos rfl, if_neg (fun h => hx (hx'.1 h))]
  unfold ofArgs
  cases domains with
  | none => exact key _ rfl
  | some d => exact key _ rfl

/-! ### cases that meet the hypotheses -/

/-- addresses are `h` (no password) and `s` (a password with `%`); the domains are the list itself -/
def sampleEnv : Env where
  parse s := if s = ['h'] then some ⟨['h'], ['u'], none⟩ else if s = ['s'] then some ⟨['h'], ['u'], some ['%']⟩ else none
  supported _ := true
  decode s := if s = ['%'] then ['@'] else s
  noProxy := some ['l']
  covers l h := l = h

example : (ofArgs sampleEnv false (some ['h']) (some ['x'])).map (fun b => (route sampleEnv b ['x'], route sampleEnv b ['l'])) =
    some (.direct, .via ['h'] none) := by decide +kernel

example : (ofArgs sampleEnv true (some ['s']) none).map (fun b => (route sampleEnv b ['l'], route sampleEnv b ['x'])) =
    some (.direct, .via ['h'] (some (['u'], ['%']))) := by decide +kernel

/-- calls as in `C71_last_url` and `C71_last_off` -/
example : ((applyAll sampleEnv fresh ([.url ['s'], .proxy false] ++ .domains ['x'] :: ([.proxy false] ++ .url ['h'] :: [.domains ['q']]))).map
      fun b => (route sampleEnv b ['x'], route sampleEnv b ['q'])) = some (.direct, .via ['h'] none) ∧
    ((applyAll sampleEnv fresh ([.url ['s']] ++ .proxy false :: [.domains ['q']])).map fun b => route sampleEnv b ['x']) = some .direct := by
  decide +kernel

end Proxy
end Oro
