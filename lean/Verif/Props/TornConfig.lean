import Verif.Props.Login
import Verif.Spec.Torn
/- C102: a configuration file whose writing was interrupted (login.rs (command) 114, logout.rs (command) 47, lib.rs:581). -/

set_option linter.unusedSectionVars false

namespace Oro

/-- a part of a file has the same first node of a name, or none, or one without a block -/
theorem torn_get {doc t : KDoc} (h : Torn doc t) (n : Str) : KDoc.get t n = KDoc.get doc n ∨ KDoc.get t n = none ∨
    ∃ s, KDoc.get t n = some s ∧ s.children = none := by
  have front : ∀ {a b : KDoc} {x : KNode}, KDoc.get a n = some x → KDoc.get (a ++ b) n = some x := by
    intro a b x hx
    unfold KDoc.get at hx ⊢
    rw [List.find?_append, hx]; rfl
  cases h with
  | after k =>
    cases hx : KDoc.get (doc.take k) n with
    | none => exact .inr (.inl rfl)
    | some x =>
      left
      have := front (b := doc.drop k) hx
      rw [List.take_append_drop] at this
      rw [this]
  | within hd hs =>
    rename_i front' rest k s
    cases hx : KDoc.get front' n with
    | some x =>
      left
      rw [front hx, hd, front hx]
    | none =>
      have he : KDoc.get (front' ++ [s]) n = KDoc.get [s] n := by
        unfold KDoc.get at hx ⊢
        rw [List.find?_append, hx]; rfl
      rw [he]
      by_cases hn : s.name = n
      · exact .inr (.inr ⟨s, by simp [KDoc.get, hn], hs.block⟩)
      · exact .inr (.inl (by simp [KDoc.get, hn]))

namespace Auth
open Config Startup

/-- **C102**: when the program is interrupted while it writes a configuration file, what is left of the file – if it can be
read at all – sets either everything that the whole file sets, or nothing: no option is cut short, and none is kept without
the others. -/
theorem C102_all_or_nothing (num : Int → Str) {doc t : KDoc} (h : Torn doc t) : collect num t = collect num doc ∨ collect num t = [] := by
  have e : optionsWord = kOptions := rfl
  rcases torn_get h optionsWord with h | h | ⟨s, h, hs⟩
  · left; unfold collect; rw [h]
  · right; unfold collect; rw [h]
  · right; unfold collect; rw [h]; dsimp only; rw [hs]

variable {parse : Str → Option Url} {text : Url → Str} {num : Int → Str}

/-- a command that no source tells anything about credentials has none -/
theorem nothing_said {file : IMap Str CVal} (h : file = []) (r : LaterCommand kAuth file) : commandCreds parse r.vals = .ok (some []) := by
  subst h
  have hp := later_perm r (x := none) (fun root hr => by rw [setAll]; exact hr)
  have : r.vals = [] := hp.eq_nil
  rw [this]
  rfl

/-- **C102**, credentials: after `oro login` was interrupted while it wrote the file, a later command that can read what is
left uses for the registry exactly the credentials of the login, or no credentials for any registry: never a part of a
token, and never another registry's. -/
theorem C102_credentials (uri : Url) (ht : parse (text uri) = some uri) (hdash : parse ['-'] = none)
    (hu : Address (text uri)) (c : Stored) (d : KDoc) (hd : OneAuth d)
    (ha : ∀ l, sectionNodes kAuth d = some l → ∀ k ∈ l, Address k.name) {t : KDoc} (h : Torn (setCreds parse text uri c d) t)
    (r : LaterCommand kAuth (collect num t)) :
    ∃ creds, commandCreds parse r.vals = .ok (some creds) ∧ (creds.get? (nerf uri) = some (meaning c) ∨ creds = []) := by
  rcases C102_all_or_nothing num h with e | e
  · obtain ⟨creds, h1, h2⟩ := use_core uri ht hdash hu c d hd ha _ (collect_wf _) (congrArg (fun m => IMap.get? m kAuth) e) r
    exact ⟨creds, h1, .inl h2⟩
  · exact ⟨[], nothing_said e r, .inr rfl⟩

/-! ### logging in again -/

/-- the nodes in the options block -/
theorem oneAuth_iff {d : KDoc} : OneAuth d ↔ (((KDoc.get d kOptions).bind KNode.children).getD []).filter (fun s => s.name = kAuth) = [] ∨
    ∃ l, (((KDoc.get d kOptions).bind KNode.children).getD []).filter (fun s => s.name = kAuth) = [.mk kAuth [] (some l)] ∧ ∀ k ∈ l, AuthNode k := by
  constructor
  · intro h
    cases h1 : KDoc.get d kOptions with
    | none => exact .inl rfl
    | some o =>
      cases h2 : o.children with
      | none => left; simp [h2]
      | some oc => simpa [h2] using h o oc h1 h2
  · intro h o oc h1 h2
    rw [h1] at h
    simpa [h2] using h

theorem sectionNodes_eq {d : KDoc} {sec : Str} : sectionNodes sec d = (KDoc.get (((KDoc.get d kOptions).bind KNode.children).getD []) sec).bind KNode.children := by
  unfold sectionNodes
  cases h1 : KDoc.get d kOptions with
  | none => rfl
  | some o =>
    dsimp only [Option.bind_some]
    cases h2 : o.children with
    | none => rfl
    | some oc => rfl

/-- the auth sections are among what is not the scopes' -/
theorem auth_other {d d' : KDoc} (h : otherOptions kScoped d = otherOptions kScoped d') :
    (((KDoc.get d kOptions).bind KNode.children).getD []).filter (fun s => s.name = kAuth) =
    (((KDoc.get d' kOptions).bind KNode.children).getD []).filter (fun s => s.name = kAuth) := by
  have key : ∀ d, (((KDoc.get d kOptions).bind KNode.children).getD []).filter (fun s => s.name = kAuth) =
      (otherOptions kScoped d).filter (fun s => s.name = kAuth) := by
    intro d
    unfold otherOptions
    rw [List.filter_filter]
    congr 1
    funext k
    by_cases hk : k.name = kAuth
    · simp [hk, (by decide : kAuth ≠ kScoped)]
    · simp [hk]
  rw [key, key, h]

/-- a configuration file with registries' nodes only, all of them with proper addresses -/
def Plain (d : KDoc) : Prop := OneAuth d ∧ ∀ l, sectionNodes kAuth d = some l → ∀ k ∈ l, Address k.name

theorem plain_of_filter {d d' : KDoc} (h : (((KDoc.get d kOptions).bind KNode.children).getD []).filter (fun s => s.name = kAuth) =
    (((KDoc.get d' kOptions).bind KNode.children).getD []).filter (fun s => s.name = kAuth)) (hp : Plain d') : Plain d := by
  constructor
  · rw [oneAuth_iff, h]
    exact oneAuth_iff.1 hp.1
  · have : sectionNodes kAuth d = sectionNodes kAuth d' := by
      have key : ∀ l : KDoc, KDoc.get l kAuth = (l.filter (fun s => s.name = kAuth)).head? := fun l => by
        unfold KDoc.get; rw [List.head?_filter]
      rw [sectionNodes_eq, sectionNodes_eq, key, key, h]
    rw [this]
    exact hp.2

theorem plain_setCreds (uri : Url) (hu : Address (text uri)) (c : Stored) {d : KDoc} (hp : Plain d) : Plain (setCreds parse text uri c d) := by
  obtain ⟨o, oc, l, h1, h2, h3, h4, h5⟩ := saved_options (parse := parse) (text := text) uri c d hp.1
  have hall : ∀ k ∈ cleanAuth parse uri l ++ [credNode text uri c], AuthNode k ∧ Address k.name := by
    intro k hk
    rw [List.mem_append, List.mem_singleton] at hk
    rcases hk with hk | rfl
    · have := (List.mem_filter.1 hk).1
      obtain ⟨l', e1, e2⟩ := h5 k this
      exact ⟨h4 k this, hp.2 l' e1 k e2⟩
    · exact ⟨credNode_auth c, by rw [credNode_name]; exact hu⟩
  constructor
  · intro o' oc' e1 e2
    rw [h1] at e1; cases e1
    rw [h2] at e2; cases e2
    exact .inr ⟨_, h3, fun k hk => (hall k hk).1⟩
  · intro l' e k hk
    unfold sectionNodes at e
    rw [h1, Option.bind_some, h2, Option.bind_some, get_some_of_filter h3] at e
    cases e
    exact (hall k hk).2

theorem plain_torn {doc t : KDoc} (h : Torn doc t) (hp : Plain doc) : Plain t := by
  have nothing : ((KDoc.get t kOptions).bind KNode.children) = none → Plain t := by
    intro h
    constructor
    · rw [oneAuth_iff, h]; exact .inl rfl
    · intro l hl
      rw [sectionNodes_eq, h] at hl
      cases hl
  rcases torn_get h kOptions with h | h | ⟨s, h, hs⟩
  · exact plain_of_filter (by rw [h]) hp
  · exact nothing (by rw [h]; rfl)
  · exact nothing (by rw [h]; exact hs)

/-- the file after a login can be used as the file before one -/
theorem plain_login {E : Login.Env} {reg : Url} (hu : Address (text reg)) {cmd : Login.Cmd} {clientOk : Bool} {ty : Login.Typed}
    {answers : List (Option Login.Answer)} {d d' : KDoc} (hp : Plain d)
    (h : (Login.loginCommand E parse text reg cmd clientOk ty answers (some d)).2.2 = some d') : Plain d' := by
  unfold Login.loginCommand at h
  dsimp only at h
  split at h
  · split at h
    · rename_i c _ _
      cases h
      cases cmd.scope with
      | none => exact plain_setCreds reg hu _ hp
      | some s =>
        refine plain_of_filter (auth_other ?_) (plain_setCreds (parse := parse) (text := text) reg hu c hp)
        show otherOptions kScoped (setScoped text s reg _) = _
        unfold setScoped
        rw [otherOptions_in, otherOptions_ensure]
    all_goals (cases h; exact hp)
  · cases h; exact hp

/-- **C102**, trying again: after an interrupted login – of the same registry or another, with or without a scope – a login
that succeeds works as if nothing had happened, provided what is left of the file can be read. -/
theorem C102_again {E : Login.Env} (reg : Url) (ht : parse (text reg) = some reg) (hdash : parse ['-'] = none) (hu : Address (text reg))
    (cmd : Login.Cmd) (hs : ∀ s, cmd.scope = some s → E.headerOk s = true) (clientOk : Bool) (ty : Login.Typed) (answers : List (Option Login.Answer))
    {E1 : Login.Env} (reg1 : Url) (hu1 : Address (text reg1)) (cmd1 : Login.Cmd) (ok1 : Bool) (ty1 : Login.Typed) (answers1 : List (Option Login.Answer))
    (d d1 t : KDoc) (hd : OneAuth d) (ha : ∀ l, sectionNodes kAuth d = some l → ∀ k ∈ l, Address k.name)
    (h1 : (Login.loginCommand E1 parse text reg1 cmd1 ok1 ty1 answers1 (some d)).2.2 = some d1) (h : Torn d1 t) :
    let r := Login.loginCommand E parse text reg cmd clientOk ty answers (some t)
    (r.1 ≠ .ok () ∧ r.2.2 = some t) ∨ ∃ c d', r.1 = .ok () ∧ Login.Gives E ty answers cmd c ∧ r.2.2 = some d' ∧
      ∀ later : LaterCommand kAuth (collect num d'), ∃ creds, commandCreds parse later.vals = .ok (some creds) ∧
        creds.get? (nerf reg) = some (meaning c) :=
  have hp := plain_torn h (plain_login hu1 ⟨hd, ha⟩ h1)
  Login.C66_command reg ht hdash hu cmd hs clientOk ty answers t hp.1 hp.2

/-- **C102**, logging out: interrupted while it wrote the file, `oro logout` has taken away the registry's credentials all the
same: no later command has them. -/
theorem C102_logout (b : B64) (hdash : parse ['-'] = none) (reg : Url) (clientOk answered : Bool) (d d' t : KDoc) (hd : OneAuth d)
    (ha : ∀ l, sectionNodes kAuth d = some l → ∀ k ∈ l, Address k.name)
    (h : (Login.logoutCommand b parse reg clientOk answered (some d)).1 = .ok ())
    (h' : (Login.logoutCommand b parse reg clientOk answered (some d)).2.2 = some d') (ht : Torn d' t) (later : LaterCommand kAuth (collect num t))
    (creds : IMap Str Cred) (hcr : commandCreds parse later.vals = .ok (some creds)) : creds.get? (nerf reg) = none := by
  rcases C102_all_or_nothing num ht with e | e
  · have key : ∀ (m : IMap Str CVal), m = collect num d' → ∀ later : LaterCommand kAuth m, commandCreds parse later.vals = .ok (some creds) →
        creds.get? (nerf reg) = none := by
      rintro m rfl later hcr
      exact Login.C67_later b hdash reg clientOk answered d d' hd ha h h' later creds hcr
    exact key _ e later hcr
  · rw [nothing_said e later] at hcr
    cases hcr
    rfl

/-- The stronger claim is false: interrupted at the wrong moment, a login loses the credentials of every other registry, which
both the file before and the file after it have. -/
theorem C102_lost_fails : ∃ (parse : Str → Option Url) (text : Url → Str) (reg other : Url) (d t : KDoc) (c : Stored), 
    Torn (setCreds parse text reg c d) t ∧ nerf other ≠ nerf reg ∧
    (sectionNodes kAuth d).bind (findAuth parse other) ≠ none ∧ (sectionNodes kAuth (setCreds parse text reg c d)).bind (findAuth parse other) ≠ none ∧
    ∀ (num : Int → Str) (later : LaterCommand kAuth (collect num t)), commandCreds parse later.vals = .ok (some []) := by
  refine ⟨sampleParse, fun u => u.host.getD [], ⟨[], some ['r'], none, ['/'], []⟩, ⟨[], some ['q'], none, ['/'], []⟩, sampleDoc ['2'], _, .token ['3'], .after 1,
    by decide, by simp [sectionNodes, sampleDoc, findAuth, KDoc.get, KNode.name, KNode.children, kOptions, kAuth, KNode.leaf, sampleParse], ?_, ?_⟩
  · rw [show setCreds sampleParse (fun u => u.host.getD []) ⟨[], some ['r'], none, ['/'], []⟩ (.token ['3']) (sampleDoc ['2']) = sampleDoc ['3'] from rfl]
    simp [sectionNodes, sampleDoc, findAuth, KDoc.get, KNode.name, KNode.children, kOptions, kAuth, KNode.leaf, sampleParse]
  · intro num later
    exact nothing_said rfl later

/-- the hypotheses are met: a file of which the whole options block is left, and nothing after it -/
example : collect num ((sampleDoc ['3'] ++ [KNode.leaf ['z'] ['1']]).take 2) = collect num (sampleDoc ['3'] ++ [KNode.leaf ['z'] ['1']]) := by
  rcases C102_all_or_nothing num (.after (doc := sampleDoc ['3'] ++ [KNode.leaf ['z'] ['1']]) 2) with h | h
  · exact h
  · cases h

/-- and one of which only the word `options` is left -/
example : Torn (sampleDoc ['3']) [.mk ['x'] [] none, .mk kOptions [] none] :=
  .within (front := [.mk ['x'] [] none]) (rest := []) rfl ⟨List.prefix_refl _, List.prefix_refl _, rfl⟩

end Auth
end Oro
