import Verif.Proofs.Auth
/-
C38, C39: credentials.
-/
set_option linter.unusedSectionVars false
namespace Oro
namespace Auth

/-! ### C38 -/

theorem headerOf_says (b64 : Str → Str) (c : Cred) : Says b64 c (headerOf b64 c) := by
  cases c with
  | token t => exact .token t
  | encoded a => exact .encoded a
  | basic u p =>
    cases p with
    | none => exact .user u
    | some p =>
      have := Says.pair (b64 := b64) u p
      rwa [List.append_assoc] at this

/-- a header says one thing -/
theorem says_unique {b64 : Str → Str} {c : Cred} {h h' : Header} (a : Says b64 c h) (b : Says b64 c h') : h = h' := by
  cases a <;> cases b <;> rfl

/-- C38: a header is attached only to requests to the registry's host, below the registry's path, and it holds the
credentials stored for that registry. -/
theorem C38_only_there (b64 : Str → Str) (creds : IMap Str Cred) (reg req : Url) (h : Header)
    (ha : attached b64 creds reg req = some h) :
    req.host = reg.host ∧ reg.path <+: req.path ∧ ∃ c, creds.get? (nerf reg) = some c ∧ Says b64 c h := by
  unfold attached at ha
  split at ha
  · rename_i hi
    simp only [inside, Bool.and_eq_true, decide_eq_true_eq, List.isPrefixOf_iff_prefix] at hi
    obtain ⟨c, hc, rfl⟩ := Option.map_eq_some_iff.1 ha
    exact ⟨hi.1.symm, hi.2, c, hc, headerOf_says b64 c⟩
  · cases ha

/-- C38, from the options: the header a client sends comes from an option given for a registry of the same host and path;
credentials of another registry are never sent. -/
theorem C38_source (parse : Str → Option Url) (b64 : Str → Str) (opts : List AuthOpt) (creds : IMap Str Cred)
    (hc : clientCreds parse opts = some creds) (hw : ∀ e ∈ opts, ∀ u, parse e.1 = some u → Web u) (reg req : Url)
    (hr : Web reg) (h : Header) (ha : attached b64 creds reg req = some h) :
    req.host = reg.host ∧ reg.path <+: req.path ∧
    ∃ e ∈ opts, ∃ u c, parse e.1 = some u ∧ SameReg u reg ∧ credOf opts e = some c ∧ Says b64 c h := by
  obtain ⟨h1, h2, c, h3, h4⟩ := C38_only_there b64 creds reg req h ha
  refine ⟨h1, h2, ?_⟩
  rcases fold_source opts [] creds hc _ _ h3 with h5 | ⟨e, he, u, hu, hn, hco⟩
  · simp at h5
  · exact ⟨e, he, u, c, hu, nerf_inj (hw e he u hu) hr hn, hco, h4⟩

/-- C38: requests inside the registry do carry the credentials given for it, if they are the only ones. -/
theorem C38_sent (parse : Str → Option Url) (b64 : Str → Str) (opts : List AuthOpt) (creds : IMap Str Cred)
    (hc : clientCreds parse opts = some creds) (reg req : Url) (hh : req.host = reg.host) (hp : reg.path <+: req.path)
    (e : AuthOpt) (he : e ∈ opts) (u : Url) (hu : parse e.1 = some u) (hs : SameReg u reg) (c : Cred)
    (hco : credOf opts e = some c)
    (hone : ∀ e' ∈ opts, ∀ u' c', parse e'.1 = some u' → nerf u' = nerf reg → credOf opts e' = some c' → c' = c) :
    ∃ h, attached b64 creds reg req = some h ∧ Says b64 c h := by
  refine ⟨headerOf b64 c, ?_, headerOf_says b64 c⟩
  obtain ⟨c', hc'⟩ := fold_some opts [] creds hc (nerf reg) (.inr ⟨e, he, u, c, hu, nerf_same hs, hco⟩)
  have : c' = c := by
    rcases fold_source opts [] creds hc _ _ hc' with h5 | ⟨e', he', u', hu', hn, hco'⟩
    · simp at h5
    · exact hone e' he' u' c' hu' hn hco'
  unfold attached
  rw [if_pos, hc', this]
  · rfl
  · simp only [inside, Bool.and_eq_true, decide_eq_true_eq, List.isPrefixOf_iff_prefix]
    exact ⟨hh.symm, hp⟩

/-- C38: the registry `https://r/npm` -/
def sampleReg : Url := ⟨['h', 't', 't', 'p', 's'], some ['r'], none, ['/', 'n', 'p', 'm'], []⟩

/-- C38: "the registry" is taken loosely: a request to another port, and without encryption, gets the header. -/
theorem C38_port_fails : ∃ req : Url, req.port ≠ sampleReg.port ∧ req.scheme ≠ sampleReg.scheme ∧
    attached id [(nerf sampleReg, .token ['t'])] sampleReg req = some (.bearer ['t']) :=
  ⟨⟨['h', 't', 't', 'p'], some ['r'], some 8080, ['/', 'n', 'p', 'm', '/', 'x'], []⟩, by decide, by decide, by decide⟩

/-- C38: "below the path" is a prefix of characters: with a registry at `/npm`, a request to `/npm-mirror` gets the
header. -/
theorem C38_prefix_fails : ∃ req : Url, req.path = sampleReg.path ++ ['-', 'm', 'i', 'r', 'r', 'o', 'r'] ∧
    attached id [(nerf sampleReg, .token ['t'])] sampleReg req = some (.bearer ['t']) :=
  ⟨⟨['h', 't', 't', 'p', 's'], some ['r'], none, sampleReg.path ++ ['-', 'm', 'i', 'r', 'r', 'o', 'r'], []⟩, rfl, by decide⟩

/-- C38 holds for registries whose path ends in a slash: the request's path is inside the folder. -/
theorem C38_folder (b64 : Str → Str) (creds : IMap Str Cred) (reg req : Url) (h : Header) (p : Str)
    (hp : reg.path = p ++ ['/']) (ha : attached b64 creds reg req = some h) : ∃ r, req.path = p ++ '/' :: r := by
  obtain ⟨_, ⟨r, hr⟩, _⟩ := C38_only_there b64 creds reg req h ha
  exact ⟨r, by rw [← hr, hp]; simp⟩

/-! ### C39 -/

section C39
variable {parse : Str → Option Url} {text : Url → Str}

/-- C39: what reading gives after saving; `none` if the auth node has no block. -/
theorem C39_readback (b : B64) (uri : Url) (ht : parse (text uri) = some uri) (c : Stored) (d : KDoc) (hb : ¬ Bare kAuth d) :
    getCreds parse b uri (setCreds parse text uri c d) = match c with
      | .token t => some (.legacy t)
      | .legacy t => some (.token t)
      | .basic u (some p) => (b.dec p).map fun p => .legacy (b.enc (u ++ ':' :: p))
      | .basic _ none => none := by
  unfold getCreds setCreds
  rw [section_in, section_ensure _ _ hb]
  simp only [Option.map_some, Option.bind_some]
  rw [find_append, find_clean_self, Option.none_or, find_single _ _ uri (by rw [credNode_name]; exact ht), if_pos rfl,
    Option.bind_some]
  cases c with
  | token t => rfl
  | legacy t => rfl
  | basic u p => cases p <;> rfl

/-- C39 is false of the code for every document, registry and credentials: reading back never gives what was saved. A
saved token is read as basic credentials and the other way round. -/
theorem C39_fails (b : B64) (uri : Url) (ht : parse (text uri) = some uri) (c : Stored) (d : KDoc) :
    getCreds parse b uri (setCreds parse text uri c d) ≠ some c := by
  by_cases hb : Bare kAuth d
  · unfold getCreds setCreds
    rw [section_in, section_ensure_bare _ _ hb]
    simp
  · rw [C39_readback b uri ht c d hb]
    cases c with
    | token t => simp
    | legacy t => simp
    | basic u p =>
      cases p with
      | none => simp
      | some p => cases b.dec p <;> simp

/-- C39: with an auth node that has no block nothing is saved at all. -/
theorem C39_bare_fails (uri : Url) (c : Stored) (d : KDoc) (hb : Bare kAuth d) :
    sectionNodes kAuth (setCreds parse text uri c d) = none := by
  unfold setCreds
  rw [section_in, section_ensure_bare _ _ hb]
  rfl

/-- C39: what is in the auth section after saving: the node of the credentials, last, and the nodes there were, without
those of this registry and without those that are no URL. -/
theorem C39_saved (uri : Url) (c : Stored) (d : KDoc) (hb : ¬ Bare kAuth d) :
    sectionNodes kAuth (setCreds parse text uri c d) =
      some ((((sectionNodes kAuth d).getD []).filter fun k => match parse k.name with
        | none => false
        | some u => nerf u ≠ nerf uri) ++ [credNode text uri c]) := by
  unfold setCreds
  rw [section_in, section_ensure _ _ hb]
  rfl

theorem mem_authOpts {l : KDoc} {e : AuthOpt} (h : e ∈ authOpts l) : ∃ k ∈ l, k.name = e.1 ∧ (some e.2.1, KVal.str e.2.2) ∈ k.entries := by
  unfold authOpts at h
  obtain ⟨k, hk, he⟩ := List.mem_flatMap.1 h
  obtain ⟨x, hx, hxe⟩ := List.mem_filterMap.1 he
  refine ⟨k, hk, ?_⟩
  obtain ⟨x1, x2⟩ := x
  cases x1 with
  | none => simp at hxe
  | some key =>
    cases x2 with
    | str v => simp only [Option.some.injEq] at hxe; subst hxe; exact ⟨rfl, hx⟩
    | _ => simp at hxe

/-- the options for this registry are those of the saved credentials -/
theorem used_core (uri : Url) (ht : parse (text uri) = some uri) (c : Stored) (opts : List AuthOpt)
    (hmem : ∀ e ∈ opts, ∃ u, parse e.1 = some u ∧ (nerf u = nerf uri → e.1 = text uri ∧
      (some e.2.1, KVal.str e.2.2) ∈ (credNode text uri c).entries))
    (hin : ∀ key v, (some key, KVal.str v) ∈ (credNode text uri c).entries → (text uri, key, v) ∈ opts) :
    ∃ creds, clientCreds parse opts = some creds ∧ creds.get? (nerf uri) = some (meaning c) := by
  obtain ⟨creds, hcr⟩ := fold_defined (parse := parse) (all := opts) opts
    (fun e he => by obtain ⟨u, hu, _⟩ := hmem e he; rw [hu]; rfl) []
  refine ⟨creds, hcr, ?_⟩
  -- the password found for this registry
  have hpw : ∀ v, passwordFor opts (text uri) = some v → (some kPass, KVal.str v) ∈ (credNode text uri c).entries := by
    intro v h
    unfold passwordFor at h
    obtain ⟨e, he, rfl⟩ := Option.map_eq_some_iff.1 h
    have h1 := List.find?_some he
    simp only [Bool.and_eq_true, decide_eq_true_eq] at h1
    obtain ⟨u, hu, h2⟩ := hmem e (List.mem_of_find?_eq_some he)
    have h3 : u = uri := by rw [h1.1, ht] at hu; exact (Option.some.inj hu).symm
    have := (h2 (by rw [h3])).2
    rwa [h1.2] at this
  have hsome : ∀ v, (text uri, kPass, v) ∈ opts → passwordFor opts (text uri) ≠ none := by
    intro v h hn
    unfold passwordFor at hn
    rw [Option.map_eq_none_iff, List.find?_eq_none] at hn
    have := hn _ h
    simp at this
  -- what an option of this registry stands for
  have hcred : ∀ key v, (some key, KVal.str v) ∈ (credNode text uri c).entries → ∀ c', credOf opts (text uri, key, v) = some c' →
      c' = meaning c := by
    intro key v hk c' hc'
    cases c with
    | token t =>
      simp only [credNode, KNode.entries, List.mem_singleton, Prod.mk.injEq, Option.some.injEq, KVal.str.injEq] at hk
      obtain ⟨rfl, rfl⟩ := hk
      simp [credOf] at hc'
      exact hc'.symm
    | legacy t =>
      simp only [credNode, KNode.entries, List.mem_singleton, Prod.mk.injEq, Option.some.injEq, KVal.str.injEq] at hk
      obtain ⟨rfl, rfl⟩ := hk
      simp [credOf, kLegacy, kToken, kUser] at hc'
      exact hc'.symm
    | basic u p =>
      cases p with
      | none =>
        have hk' := hk
        simp only [credNode, KNode.entries, List.mem_singleton, Prod.mk.injEq, Option.some.injEq, KVal.str.injEq] at hk'
        obtain ⟨rfl, rfl⟩ := hk'
        have hnp : passwordFor opts (text uri) = none := by
          by_contra hne
          obtain ⟨w, hw⟩ := Option.ne_none_iff_exists'.1 hne
          have := hpw w hw
          simp [credNode, KNode.entries, kPass, kUser] at this
        simp [credOf, kToken, kUser, hnp] at hc'
        exact hc'.symm
      | some p =>
        have hk' := hk
        simp only [credNode, KNode.entries, List.mem_cons, List.not_mem_nil, or_false, Prod.mk.injEq, Option.some.injEq, KVal.str.injEq] at hk'
        have hps : passwordFor opts (text uri) = some p := by
          cases hq : passwordFor opts (text uri) with
          | none => exact absurd hq (hsome p (hin _ _ (by simp [credNode, KNode.entries])))
          | some w =>
            have := hpw w hq
            simp only [credNode, KNode.entries, List.mem_cons, List.not_mem_nil, or_false, Prod.mk.injEq, Option.some.injEq, KVal.str.injEq] at this
            rcases this with ⟨h, _⟩ | ⟨_, h⟩
            · exact absurd h (by decide)
            · rw [h]
        rcases hk' with ⟨rfl, rfl⟩ | ⟨rfl, rfl⟩
        · simp [credOf, kToken, kUser, hps] at hc'
          exact hc'.symm
        · simp [credOf, kToken, kUser, kPass, kLegacy] at hc'
  -- there is one
  have hex : ∃ key v c', (some key, KVal.str v) ∈ (credNode text uri c).entries ∧ credOf opts (text uri, key, v) = some c' := by
    cases c with
    | token t => exact ⟨kToken, t, .token t, by simp [credNode, KNode.entries], by simp [credOf]⟩
    | legacy t => exact ⟨kLegacy, t, .encoded t, by simp [credNode, KNode.entries], by simp [credOf, kLegacy, kToken, kUser]⟩
    | basic u p =>
      refine ⟨kUser, u, .basic u (passwordFor opts (text uri)), ?_, by simp [credOf, kToken, kUser]⟩
      cases p <;> simp [credNode, KNode.entries]
  obtain ⟨key, v, c', h1, h2⟩ := hex
  obtain ⟨c2, hc2⟩ := fold_some opts [] creds hcr (nerf uri) (.inr ⟨_, hin key v h1, uri, c', ht, rfl, h2⟩)
  rcases fold_source opts [] creds hcr _ _ hc2 with h | ⟨e, he, u, hu, hn, hco⟩
  · simp at h
  · obtain ⟨u', hu', h3⟩ := hmem e he
    have hz : u' = u := by rw [hu] at hu'; exact (Option.some.inj hu').symm
    obtain ⟨h4, h5⟩ := h3 (by rw [hz]; exact hn)
    obtain ⟨e1, e2, e3⟩ := e
    dsimp only at h4 h5
    subst h4
    rw [hc2, hcred e2 e3 h5 c2 hco]

/-- C39: but the credentials saved are the ones commands use: a client built from the saved document's auth options (in
any order) has exactly them for this registry. -/
theorem C39_used (uri : Url) (ht : parse (text uri) = some uri) (c : Stored) (d : KDoc) (hb : ¬ Bare kAuth d)
    (l : KDoc) (hl : sectionNodes kAuth (setCreds parse text uri c d) = some l) (opts : List AuthOpt)
    (ho : opts.Perm (authOpts l)) : ∃ creds, clientCreds parse opts = some creds ∧
      creds.get? (nerf uri) = some (meaning c) := by
  rw [C39_saved uri c d hb, Option.some.injEq] at hl
  -- the options of this registry are those of the new node
  have hmem : ∀ e ∈ opts, ∃ u, parse e.1 = some u ∧ (nerf u = nerf uri → e.1 = text uri ∧
      (some e.2.1, KVal.str e.2.2) ∈ (credNode text uri c).entries) := by
    intro e he
    obtain ⟨k, hk, h1, h2⟩ := mem_authOpts (ho.mem_iff.1 he)
    rw [← hl, List.mem_append, List.mem_filter, List.mem_singleton] at hk
    rcases hk with ⟨_, hk⟩ | rfl
    · rw [h1] at hk
      cases hp : parse e.1 with
      | none => rw [hp] at hk; simp at hk
      | some u => rw [hp] at hk; exact ⟨u, rfl, fun h => absurd h (by simpa using hk)⟩
    · rw [credNode_name] at h1
      exact ⟨uri, by rw [← h1, ht], fun _ => ⟨h1.symm, h2⟩⟩
  have hin : ∀ key v, (some key, KVal.str v) ∈ (credNode text uri c).entries → (text uri, key, v) ∈ opts := by
    intro key v h
    rw [ho.mem_iff, ← hl]
    unfold authOpts
    rw [List.mem_flatMap]
    refine ⟨credNode text uri c, by simp, ?_⟩
    rw [List.mem_filterMap]
    exact ⟨_, h, by rw [credNode_name]⟩
  exact used_core uri ht c opts hmem hin

/-- C39: saving for one registry leaves what is read for another one, the other options and the rest of the document. -/
theorem C39_set_others (b : B64) (uri other : Url) (ht : parse (text uri) = some uri) (hn : nerf other ≠ nerf uri) (c : Stored)
    (d : KDoc) : getCreds parse b other (setCreds parse text uri c d) = getCreds parse b other d ∧
      otherOptions kAuth (setCreds parse text uri c d) = otherOptions kAuth d ∧
      (setCreds parse text uri c d).filter (fun k => k.name ≠ kOptions) = d.filter fun k => k.name ≠ kOptions := by
  refine ⟨?_, ?_, ?_⟩
  · unfold getCreds setCreds
    rw [section_in]
    by_cases hb : Bare kAuth d
    · rw [section_ensure_bare _ _ hb]
      obtain ⟨o, oc, s, h1, h2, h3, h4⟩ := hb
      simp [sectionNodes, h1, h2, h3, h4]
    · rw [section_ensure _ _ hb]
      simp only [Option.map_some, Option.bind_some]
      rw [find_append, find_clean _ _ _ hn, find_single _ _ uri (by rw [credNode_name]; exact ht), if_neg (fun h => hn h.symm),
        Option.or_none]
      cases sectionNodes kAuth d with
      | none => rfl
      | some l => rfl
  · unfold setCreds
    rw [otherOptions_in, otherOptions_ensure]
  · unfold setCreds
    rw [others_in, others_ensure]

theorem section_removed (d : KDoc) : sectionNodes kAuth
    (updFirst kOptions (updChildren fun oc => oc.filter fun k => k.name ≠ kAuth) d) = none := by
  unfold sectionNodes
  rw [get_updFirst _ _ (name_upd _), if_pos rfl]
  cases h1 : KDoc.get d kOptions with
  | none => rfl
  | some o =>
    simp only [Option.map_some, Option.bind_some]
    have hc : (updChildren (fun oc => oc.filter fun k => k.name ≠ kAuth) o).children =
      o.children.map (fun oc => oc.filter fun k => k.name ≠ kAuth) := rfl
    rw [hc]
    cases h2 : o.children with
    | none => rfl
    | some oc =>
      simp only [Option.map_some, Option.bind_some]
      have : KDoc.get (oc.filter fun k => k.name ≠ kAuth) kAuth = none := by
        unfold KDoc.get
        rw [List.find?_eq_none]
        intro k hk
        rw [List.mem_filter] at hk
        simpa using hk.2
      rw [this]
      rfl

/-- C39: after clearing nothing is read for the registry, and everything else is as before. -/
theorem C39_clear (b : B64) (uri : Url) (d : KDoc) : getCreds parse b uri (clearCreds parse uri d) = none ∧
    (∀ other, nerf other ≠ nerf uri → getCreds parse b other (clearCreds parse uri d) = getCreds parse b other d) ∧
    otherOptions kAuth (clearCreds parse uri d) = otherOptions kAuth d ∧
    (clearCreds parse uri d).filter (fun k => k.name ≠ kOptions) = d.filter fun k => k.name ≠ kOptions := by
  unfold clearCreds
  cases hs : sectionNodes kAuth d with
  | none =>
    refine ⟨?_, fun _ _ => rfl, rfl, rfl⟩
    simp [getCreds, hs]
  | some l =>
    dsimp only
    split
    · rename_i he
      refine ⟨?_, ?_, ?_, others_updFirst _ _ (fun k => name_upd _ k) d⟩
      · unfold getCreds; rw [section_removed]; rfl
      · intro other hn
        unfold getCreds
        rw [section_removed, hs, Option.bind_some, Option.bind_none]
        rw [← find_clean uri other l hn, he]
        rfl
      · unfold otherOptions
        rw [get_updFirst _ _ (name_upd _), if_pos rfl]
        cases h1 : KDoc.get d kOptions with
        | none => rfl
        | some o =>
          simp only [Option.map_some, Option.bind_some]
          have hc : (updChildren (fun oc => oc.filter fun k => k.name ≠ kAuth) o).children =
            o.children.map (fun oc => oc.filter fun k => k.name ≠ kAuth) := rfl
          rw [hc]
          cases h2 : o.children with
          | none => rfl
          | some oc => simp
    · refine ⟨?_, ?_, otherOptions_in _ _ _, others_in _ _ _⟩
      · unfold getCreds
        rw [section_in, hs]
        simp [find_clean_self]
      · intro other hn
        unfold getCreds
        rw [section_in, hs]
        simp [find_clean _ _ _ hn]

/-- C39: a scope's registry is stored once, the other scopes, the other options and the rest of the document stay. -/
theorem C39_scoped (scope : Str) (reg : Url) (d : KDoc) (hb : ¬ Bare kScoped d) :
    (∃ l, sectionNodes kScoped (setScoped text scope reg d) = some l ∧
      l.filter (fun k => k.name = scope) = [.leaf scope (text reg)] ∧
      l.filter (fun k => k.name ≠ scope) = ((sectionNodes kScoped d).getD []).filter fun k => k.name ≠ scope) ∧
    otherOptions kScoped (setScoped text scope reg d) = otherOptions kScoped d ∧
    (setScoped text scope reg d).filter (fun k => k.name ≠ kOptions) = d.filter fun k => k.name ≠ kOptions := by
  refine ⟨?_, ?_, ?_⟩
  · unfold setScoped
    rw [section_in, section_ensure _ _ hb]
    refine ⟨_, rfl, ?_, ?_⟩
    · rw [List.filter_append, List.filter_filter]
      have : ((sectionNodes kScoped d).getD []).filter (fun a => decide (a.name = scope) && decide (a.name ≠ scope)) = [] := by
        rw [List.filter_eq_nil_iff]
        intro k _
        simp
      rw [this]
      simp [KNode.leaf, KNode.name]
    · rw [List.filter_append, List.filter_filter]
      simp [KNode.leaf, KNode.name]
  · unfold setScoped
    rw [otherOptions_in, otherOptions_ensure]
  · unfold setScoped
    rw [others_in, others_ensure]

end C39

/-- C39: of several properties of one name the last counts, as in any KDL document: a token written after another is the one used. -/
theorem C39_last_property (b : B64) (name old new : Str) (es : List (Option Str × KVal)) (ch : Option (List KNode)) :
    readNode b (.mk name (es ++ [(some kLegacy, .str old), (some kLegacy, .str new)]) ch) = some (.token new) ∧
    readNode b (.mk name [(some kUser, .str old), (some kPass, .str old), (some kUser, .str new), (some kPass, .str new)] ch) =
      (b.dec new).map fun p => .legacy (b.enc (new ++ ':' :: p)) := by
  constructor
  · simp [readNode, KNode.prop, KNode.entries, KVal.asStr, kLegacy]
  · simp [readNode, KNode.prop, KNode.entries, KVal.asStr, kLegacy, kUser, kPass, kToken]

/-- the hypotheses are met: a document with telemetry, another registry's token and a remark, and a registry with an old
token that is replaced -/
def sampleParse (s : Str) : Option Url :=
  if s = ['r'] then some ⟨[], some ['r'], none, ['/'], []⟩ else if s = ['q'] then some ⟨[], some ['q'], none, ['/'], []⟩ else none

@[inherit_doc sampleParse] def sampleDoc (t : Str) : KDoc :=
  [.mk ['x'] [] none, .mk kOptions [] (some [.leaf ['t'] ['y'], .mk kAuth []
    (some [.mk ['q'] [(some kToken, .str ['1'])] none, .mk ['r'] [(some kToken, .str t)] none])])]

example : ¬ Bare kAuth (sampleDoc ['2']) := by
  rintro ⟨o, oc, s, h1, h2, h3, h4⟩
  cases h1; cases h2; cases h3; cases h4

example : setCreds sampleParse (fun u => u.host.getD []) ⟨[], some ['r'], none, ['/'], []⟩ (.token ['3']) (sampleDoc ['2']) =
    sampleDoc ['3'] := rfl

end Auth
end Oro
