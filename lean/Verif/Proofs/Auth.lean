import Verif.Spec.Auth
set_option linter.unusedSectionVars false
namespace Oro
namespace Auth

theorem nerf_inj {a b : Url} (ha : Web a) (hb : Web b) (h : nerf a = nerf b) : SameReg a b := by
  obtain ⟨⟨ha1, ha2, ha3⟩, ha4⟩ := ha
  obtain ⟨⟨hb1, hb2, hb3⟩, hb4⟩ := hb
  unfold nerf at h
  rw [ha2, hb2] at h
  simp only [Option.getD_some, List.cons_append, List.cons.injEq, true_and] at h
  have hgo : ∀ (x y p q : Str), '/' ∉ x → '/' ∉ y → p.head? = some '/' → q.head? = some '/' → x ++ p = y ++ q → x = y ∧ p = q := by
    intro x
    induction x with
    | nil =>
      intro y p q _ hy hp _ h
      cases y with
      | nil => exact ⟨rfl, by simpa using h⟩
      | cons c y =>
        rw [List.nil_append] at h
        rw [h] at hp
        simp only [List.cons_append, List.head?_cons, Option.some.injEq] at hp
        exact absurd (hp ▸ List.mem_cons_self) hy
    | cons c x ih =>
      intro y p q hx hy hp hq h
      cases y with
      | nil =>
        rw [List.nil_append] at h
        rw [← h] at hq
        simp only [List.cons_append, List.head?_cons, Option.some.injEq] at hq
        exact absurd (hq ▸ List.mem_cons_self) hx
      | cons d y =>
        simp only [List.cons_append, List.cons.injEq] at h
        obtain ⟨h1, h2⟩ := ih y p q (fun h => hx (List.mem_cons_of_mem _ h)) (fun h => hy (List.mem_cons_of_mem _ h)) hp hq h.2
        exact ⟨by rw [h.1, h1], h2⟩
  obtain ⟨h1, h2⟩ := hgo _ _ _ _ ha3 hb3 ha4 hb4 h
  exact ⟨by rw [ha2, hb2, h1], h2⟩

theorem nerf_same {a b : Url} (h : SameReg a b) : nerf a = nerf b := by
  unfold nerf
  rw [h.1, h.2]

/-! ### the client's credentials -/

section client
variable {parse : Str → Option Url} {all : List AuthOpt}

theorem fold_none (l : List AuthOpt) : l.foldl (addCred parse all) none = none := by
  induction l with
  | nil => rfl
  | cons e l ih => exact ih

/-- every credential comes from an option -/
theorem fold_source (l : List AuthOpt) : ∀ (m0 m : IMap Str Cred), l.foldl (addCred parse all) (some m0) = some m →
    ∀ k c, IMap.get? m k = some c → IMap.get? m0 k = some c ∨
      ∃ e ∈ l, ∃ u, parse e.1 = some u ∧ nerf u = k ∧ credOf all e = some c := by
  induction l with
  | nil => intro m0 m h k c hc; cases h; exact .inl hc
  | cons e l ih =>
    intro m0 m h k c hc
    rw [List.foldl_cons] at h
    cases hp : parse e.1 with
    | none =>
      have : addCred parse all (some m0) e = none := by simp [addCred, hp]
      rw [this, fold_none] at h; cases h
    | some u =>
      cases hco : credOf all e with
      | none =>
        have : addCred parse all (some m0) e = some m0 := by simp [addCred, hp, hco]
        rw [this] at h
        rcases ih m0 m h k c hc with h1 | ⟨e', he', h1⟩
        · exact .inl h1
        · exact .inr ⟨e', List.mem_cons_of_mem _ he', h1⟩
      | some c' =>
        have : addCred parse all (some m0) e = some (IMap.insert m0 (nerf u) c') := by simp [addCred, hp, hco]
        rw [this] at h
        rcases ih _ m h k c hc with h1 | ⟨e', he', h1⟩
        · rw [IMap.get?_insert] at h1
          split at h1
          · rename_i hk
            cases h1
            exact .inr ⟨e, List.mem_cons_self, u, hp, hk.symm, hco⟩
          · exact .inl h1
        · exact .inr ⟨e', List.mem_cons_of_mem _ he', h1⟩

/-- if an option stands for credentials of a registry then the client has some for it -/
theorem fold_some (l : List AuthOpt) : ∀ (m0 m : IMap Str Cred), l.foldl (addCred parse all) (some m0) = some m →
    ∀ k, ((∃ c, IMap.get? m0 k = some c) ∨ ∃ e ∈ l, ∃ u c, parse e.1 = some u ∧ nerf u = k ∧ credOf all e = some c) →
    ∃ c, IMap.get? m k = some c := by
  induction l with
  | nil =>
    intro m0 m h k hk
    cases h
    rcases hk with hk | ⟨e, he, _⟩
    · exact hk
    · simp at he
  | cons e l ih =>
    intro m0 m h k hk
    rw [List.foldl_cons] at h
    cases hp : parse e.1 with
    | none =>
      have : addCred parse all (some m0) e = none := by simp [addCred, hp]
      rw [this, fold_none] at h; cases h
    | some u =>
      cases hco : credOf all e with
      | none =>
        have : addCred parse all (some m0) e = some m0 := by simp [addCred, hp, hco]
        rw [this] at h
        refine ih m0 m h k ?_
        rcases hk with hk | ⟨e', he', u', c', h1, h2, h3⟩
        · exact .inl hk
        · rcases List.mem_cons.1 he' with rfl | he'
          · rw [hco] at h3; cases h3
          · exact .inr ⟨e', he', u', c', h1, h2, h3⟩
      | some c' =>
        have : addCred parse all (some m0) e = some (IMap.insert m0 (nerf u) c') := by simp [addCred, hp, hco]
        rw [this] at h
        refine ih _ m h k ?_
        rcases hk with ⟨c, hk⟩ | ⟨e', he', u', c'', h1, h2, h3⟩
        · left
          rw [IMap.get?_insert]
          split
          · exact ⟨_, rfl⟩
          · exact ⟨c, hk⟩
        · rcases List.mem_cons.1 he' with rfl | he'
          · left
            rw [hp] at h1
            cases h1
            exact ⟨c', by rw [IMap.get?_insert, if_pos h2.symm]⟩
          · exact .inr ⟨e', he', u', c'', h1, h2, h3⟩

/-- the client exists when all registries are URLs -/
theorem fold_defined (l : List AuthOpt) (h : ∀ e ∈ l, (parse e.1).isSome) (m0 : IMap Str Cred) :
    ∃ m, l.foldl (addCred parse all) (some m0) = some m := by
  induction l generalizing m0 with
  | nil => exact ⟨m0, rfl⟩
  | cons e l ih =>
    rw [List.foldl_cons]
    obtain ⟨u, hu⟩ := Option.isSome_iff_exists.1 (h e List.mem_cons_self)
    have : ∃ m1, addCred parse all (some m0) e = some m1 := by
      simp only [addCred, Option.bind_some, hu, Option.map_some]
      exact ⟨_, rfl⟩
    obtain ⟨m1, h1⟩ := this
    rw [h1]
    exact ih (fun e he => h e (List.mem_cons_of_mem _ he)) m1

end client

/-! ### documents -/

theorem get_updFirst (n : Str) (f : KNode → KNode) (hf : ∀ k, (f k).name = k.name) (d : KDoc) (m : Str) :
    KDoc.get (updFirst n f d) m = if m = n then (KDoc.get d m).map f else KDoc.get d m := by
  induction d with
  | nil => simp [updFirst, KDoc.get]
  | cons k d ih =>
    unfold updFirst
    by_cases hk : k.name = n
    · rw [if_pos hk]
      unfold KDoc.get at ih ⊢
      rw [List.find?_cons, List.find?_cons, hf k]
      by_cases hm : m = n
      · subst hm; simp [hk]
      · rw [if_neg hm]
        have : decide (k.name = m) = false := by simp [hk]; exact fun h => hm h.symm
        rw [this]
    · rw [if_neg hk]
      unfold KDoc.get at ih ⊢
      rw [List.find?_cons, List.find?_cons]
      by_cases hm : k.name = m
      · simp only [hm, decide_true]
        rw [if_neg (fun h => hk (hm.trans h))]
      · simp only [hm, decide_false]
        exact ih

/-- the nodes of other names are the same ones, in the same order -/
theorem others_updFirst (n : Str) (f : KNode → KNode) (hf : ∀ k, (f k).name = k.name) (d : KDoc) :
    (updFirst n f d).filter (fun k => k.name ≠ n) = d.filter (fun k => k.name ≠ n) := by
  induction d with
  | nil => rfl
  | cons k d ih =>
    unfold updFirst
    split
    · rename_i hk
      rw [List.filter_cons, List.filter_cons, hf k]
      simp [hk]
    · rw [List.filter_cons, List.filter_cons, ih]

theorem name_upd (f : KDoc → KDoc) (k : KNode) : (updChildren f k).name = k.name := rfl
theorem name_ensure (k : KNode) : (ensureChildren k).name = k.name := rfl
theorem name_both (f : KDoc → KDoc) (k : KNode) : (updChildren f (ensureChildren k)).name = k.name := rfl

theorem section_in (sec : Str) (f : KDoc → KDoc) (d : KDoc) :
    sectionNodes sec (inSection sec f d) = (sectionNodes sec d).map f := by
  unfold sectionNodes inSection
  rw [get_updFirst _ _ (name_upd _), if_pos rfl]
  cases h1 : KDoc.get d kOptions with
  | none => rfl
  | some o =>
    simp only [Option.map_some, Option.bind_some]
    have hc : (updChildren (updFirst sec (updChildren f)) o).children = o.children.map (updFirst sec (updChildren f)) := rfl
    rw [hc]
    cases h2 : o.children with
    | none => rfl
    | some oc =>
      simp only [Option.map_some, Option.bind_some]
      rw [get_updFirst _ _ (name_upd _), if_pos rfl]
      cases h3 : KDoc.get oc sec with
      | none => rfl
      | some s => rfl

theorem get_append (d e : KDoc) (n : Str) : KDoc.get (d ++ e) n = (KDoc.get d n).or (KDoc.get e n) := by
  unfold KDoc.get
  rw [List.find?_append]

theorem get_single (k : KNode) (n : Str) : KDoc.get [k] n = if k.name = n then some k else none := by
  unfold KDoc.get
  rw [List.find?_singleton]
  by_cases h : k.name = n <;> simp [h]

theorem get_addSection (sec : Str) (d : KDoc) (m : Str) :
    KDoc.get (addSection sec d) m = if m = sec then some ((KDoc.get d sec).getD (.mk sec [] (some []))) else KDoc.get d m := by
  unfold addSection
  split
  · rename_i h
    rw [Option.isNone_iff_eq_none] at h
    rw [get_append, get_single]
    by_cases hm : m = sec
    · subst hm
      simp [h, KNode.name]
    · rw [if_neg hm, if_neg (fun h => hm (by rw [← h]; rfl)), Option.or_none]
  · rename_i h
    by_cases hm : m = sec
    · subst hm
      cases hg : KDoc.get d m with
      | none => rw [hg] at h; simp at h
      | some s => simp
    · rw [if_neg hm]

/-- the options block after `ensureSection` -/
theorem get_ensure (sec : Str) (d : KDoc) :
    KDoc.get (ensureSection sec d) kOptions = some (updChildren (addSection sec)
      (ensureChildren ((KDoc.get d kOptions).getD (.mk kOptions [] none)))) := by
  unfold ensureSection
  rw [get_updFirst _ _ (fun k => name_both _ k), if_pos rfl]
  cases h : KDoc.get d kOptions with
  | none => simp [get_append, get_single, h, KNode.name]
  | some o => simp [h]

theorem section_ensure (sec : Str) (d : KDoc) (h : ¬ Bare sec d) :
    sectionNodes sec (ensureSection sec d) = some ((sectionNodes sec d).getD []) := by
  unfold sectionNodes
  rw [get_ensure]
  simp only [Option.bind_some]
  have hc : ∀ o : KNode, (updChildren (addSection sec) (ensureChildren o)).children = some (addSection sec (o.children.getD [])) :=
    fun o => rfl
  rw [hc]
  simp only [Option.bind_some]
  rw [get_addSection, if_pos rfl]
  simp only [Option.bind_some]
  cases h1 : KDoc.get d kOptions with
  | none => rfl
  | some o =>
    simp only [Option.getD_some, Option.bind_some]
    cases h2 : o.children with
    | none => rfl
    | some oc =>
      simp only [Option.getD_some, Option.bind_some]
      cases h3 : KDoc.get oc sec with
      | none => rfl
      | some s =>
        simp only [Option.getD_some, Option.bind_some]
        cases h4 : s.children with
        | none => exact absurd ⟨o, oc, s, h1, h2, h3, h4⟩ h
        | some l => rfl

theorem section_ensure_bare (sec : Str) (d : KDoc) (h : Bare sec d) : sectionNodes sec (ensureSection sec d) = none := by
  obtain ⟨o, oc, s, h1, h2, h3, h4⟩ := h
  unfold sectionNodes
  rw [get_ensure, h1]
  simp only [Option.getD_some, Option.bind_some]
  have hc : (updChildren (addSection sec) (ensureChildren o)).children = some (addSection sec (o.children.getD [])) := rfl
  rw [hc, h2]
  simp only [Option.getD_some, Option.bind_some]
  rw [get_addSection, if_pos rfl, h3]
  simpa using h4

/-- other top-level nodes, and other sections -/
theorem others_ensure (sec : Str) (d : KDoc) :
    (ensureSection sec d).filter (fun k => k.name ≠ kOptions) = d.filter (fun k => k.name ≠ kOptions) := by
  unfold ensureSection
  rw [others_updFirst _ _ (fun k => name_both _ k)]
  split
  · rw [List.filter_append]
    simp [KNode.name]
  · rfl

theorem others_in (sec : Str) (f : KDoc → KDoc) (d : KDoc) :
    (inSection sec f d).filter (fun k => k.name ≠ kOptions) = d.filter (fun k => k.name ≠ kOptions) :=
  others_updFirst _ _ (fun k => name_upd _ k) d

/-- the other options of a document: the nodes in the options block apart from this section -/
def otherOptions (sec : Str) (d : KDoc) : KDoc :=
  (((KDoc.get d kOptions).bind KNode.children).getD []).filter fun k => k.name ≠ sec

theorem otherOptions_in (sec : Str) (f : KDoc → KDoc) (d : KDoc) : otherOptions sec (inSection sec f d) = otherOptions sec d := by
  unfold otherOptions inSection
  rw [get_updFirst _ _ (name_upd _), if_pos rfl]
  cases h1 : KDoc.get d kOptions with
  | none => rfl
  | some o =>
    simp only [Option.map_some, Option.bind_some]
    have hc : (updChildren (updFirst sec (updChildren f)) o).children = o.children.map (updFirst sec (updChildren f)) := rfl
    rw [hc]
    cases h2 : o.children with
    | none => rfl
    | some oc =>
      simp only [Option.map_some, Option.getD_some]
      exact others_updFirst _ _ (fun k => name_upd _ k) oc

theorem otherOptions_ensure (sec : Str) (d : KDoc) : otherOptions sec (ensureSection sec d) = otherOptions sec d := by
  unfold otherOptions
  rw [get_ensure]
  simp only [Option.bind_some]
  have hc : ∀ o : KNode, (updChildren (addSection sec) (ensureChildren o)).children = some (addSection sec (o.children.getD [])) :=
    fun o => rfl
  rw [hc, Option.getD_some]
  have ha : ∀ d : KDoc, (addSection sec d).filter (fun k => k.name ≠ sec) = d.filter (fun k => k.name ≠ sec) := by
    intro d
    unfold addSection
    split
    · rw [List.filter_append]; simp [KNode.name]
    · rfl
  rw [ha]
  cases h1 : KDoc.get d kOptions with
  | none => rfl
  | some o => rfl

/-! ### credentials -/

section creds
variable {parse : Str → Option Url}

theorem find_clean (uri other : Url) (l : KDoc) (h : nerf other ≠ nerf uri) :
    findAuth parse other (cleanAuth parse uri l) = findAuth parse other l := by
  unfold findAuth cleanAuth
  induction l with
  | nil => rfl
  | cons k l ih =>
    rw [List.filter_cons]
    cases hp : parse k.name with
    | none =>
      simp only [Bool.false_eq_true, if_false]
      rw [ih, List.find?_cons, hp]
    | some u =>
      simp only [decide_eq_true_eq]
      by_cases hu : nerf u = nerf uri
      · rw [if_neg (by simp [hu]), ih, List.find?_cons, hp]
        have : decide (nerf u = nerf other) = false := by simp [hu]; exact fun h2 => h h2.symm
        simp only [this]
      · rw [if_pos hu, List.find?_cons, List.find?_cons, hp]
        split
        · rfl
        · exact ih

theorem find_clean_self (uri : Url) (l : KDoc) : findAuth parse uri (cleanAuth parse uri l) = none := by
  unfold findAuth cleanAuth
  rw [List.find?_eq_none]
  intro k hk
  rw [List.mem_filter] at hk
  cases hp : parse k.name with
  | none => simp
  | some u => rw [hp] at hk; simpa using hk.2

theorem find_append (uri : Url) (l m : KDoc) : findAuth parse uri (l ++ m) = (findAuth parse uri l).or (findAuth parse uri m) := by
  unfold findAuth
  rw [List.find?_append]

theorem find_single (uri : Url) (k : KNode) (u : Url) (hp : parse k.name = some u) :
    findAuth parse uri [k] = if nerf u = nerf uri then some k else none := by
  unfold findAuth
  rw [List.find?_singleton, hp]
  simp

theorem credNode_name (text : Url → Str) (uri : Url) (c : Stored) : (credNode text uri c).name = text uri := by
  cases c with
  | basic u p => cases p <;> rfl
  | _ => rfl

end creds

end Auth
end Oro
