import Verif.Proofs.Hoisted
set_option linter.unusedSectionVars false
namespace Oro
namespace Hoisted
variable {P S V I : Type} [DecidableEq V] [DecidableEq I] [DecidableEq S]
variable {pk : Pkgs P} {v : LockView P S V I} {g : Graph Str P S}

/-! ### commands -/

theorem located_snoc {g : Graph Str P S} {i : Nat} {π : List Str} (hl : LocatedAt g i π) (h0 : i ≠ 0) :
    ∃ σ nd, g.nodes[i]? = some nd ∧ π = σ ++ [nd.name] := by
  cases hl with
  | root _ => exact absurd rfl h0
  | @inside _ _ σ nd h _ _ => exact ⟨σ, nd, h, rfl⟩

/-- the command folder of a package -/
theorem binDir_located (hg : Installable pk g) {i : Nat} {σ : List Str} {n : Str} (hl : LocatedAt g i (σ ++ [n])) :
    nmWord :: binDir (targetDir g i) = folder σ ++ [nmWord, binName] := by
  have h0 : i ≠ 0 := by
    cases σ with
    | nil => exact root_not_cons hg hl
    | cons m σ => exact root_not_cons hg hl
  have htf := target_folder hg.tree (ord_of hg) h0 hl
  rw [folder_append, folder_cons] at htf
  have hn := located_names hg hl n (by simp)
  simp only [folder, List.flatMap_nil, List.append_nil] at htf
  change _ = folder σ ++ _ at htf
  have hne : targetDir g i ≠ [] := by
    intro h
    rw [h] at htf
    have := congrArg List.length htf
    have h2 := List.length_pos_iff.2 (segs_ne_nil hn)
    simp at this
    omega
  have hdl : nmWord :: (targetDir g i).dropLast = (folder σ ++ nmWord :: nameSegs n).dropLast := by
    rw [← htf, List.dropLast_cons_of_ne_nil hne]
  unfold binDir
  rcases hn with ⟨h1, h2, h3, h4, h5⟩ | ⟨s, t, rfl, hs1, ht, ht2, ht3⟩
  · rw [nameSegs_plain h1] at hdl
    have hd : nmWord :: (targetDir g i).dropLast = folder σ ++ [nmWord] := by
      rw [hdl]
      have : folder σ ++ [nmWord, n] = (folder σ ++ [nmWord]) ++ [n] := by simp
      rw [this, List.dropLast_concat]
    rw [if_pos]
    · rw [← List.cons_append, hd]; simp
    · by_cases he : (targetDir g i).dropLast = []
      · exact .inl he
      · right
        have := congrArg List.getLast? hd
        rw [List.getLast?_append, List.getLast?_cons] at this
        cases hx : (targetDir g i).dropLast.getLast? with
        | none => rw [List.getLast?_eq_none_iff] at hx; exact absurd hx he
        | some z => rw [hx] at this; simpa using this
  · rw [nameSegs_scoped hs1 ht] at hdl
    have hd : nmWord :: (targetDir g i).dropLast = folder σ ++ [nmWord, '@' :: s] := by
      rw [hdl]
      have : folder σ ++ [nmWord, '@' :: s, t] = (folder σ ++ [nmWord, '@' :: s]) ++ [t] := by simp
      rw [this, List.dropLast_concat]
    have hne2 : (targetDir g i).dropLast ≠ [] := by
      intro h
      rw [h] at hd
      have := congrArg List.length hd
      simp at this
    have hlast : (targetDir g i).dropLast.getLast? = some ('@' :: s) := by
      have := congrArg List.getLast? hd
      rw [List.getLast?_append, List.getLast?_cons] at this
      cases hx : (targetDir g i).dropLast.getLast? with
      | none => rw [List.getLast?_eq_none_iff] at hx; exact absurd hx hne2
      | some z => rw [hx] at this; simpa using this
    rw [if_neg]
    · have hd2 : nmWord :: (targetDir g i).dropLast.dropLast = folder σ ++ [nmWord] := by
        rw [← List.dropLast_cons_of_ne_nil hne2, hd]
        have : folder σ ++ [nmWord, '@' :: s] = (folder σ ++ [nmWord]) ++ ['@' :: s] := by simp
        rw [this, List.dropLast_concat]
      rw [← List.cons_append, hd2]; simp
    · rintro (h | h)
      · exact hne2 h
      · rw [hlast] at h; simp [nmWord] at h

theorem inBin_append {p : Loc} (h : InBin p) (y : Loc) : InBin (p ++ y) := by
  obtain ⟨q, r, rfl, hq⟩ := h
  exact ⟨q, r ++ y, by simp, hq⟩

theorem cleared_inBin {p : Loc} (h : cleared p = true) : InBin p := by
  rw [inBin_bad]
  induction p with
  | nil => cases h
  | cons a p ih =>
    simp only [cleared, Bool.or_eq_true, decide_eq_true_eq, Bool.and_eq_true] at h
    rcases h with rfl | ⟨rfl, h⟩
    · exact ⟨[], p, rfl⟩
    · rw [bad_cons]; exact .inr (ih h)

theorem binDir_inBin (hg : Installable pk g) {i : Nat} {σ : List Str} {n : Str} (hl : LocatedAt g i (σ ++ [n])) (y : Loc) :
    InBin (binDir (targetDir g i) ++ y) := by
  rw [inBin_bad, ← List.cons_append, binDir_located hg hl]
  exact ⟨folder σ, y, by simp⟩

/-- all folders on the way to a package are there -/
theorem way_present (hg : Installable pk g) {t : Tree} (ht : Installed pk g t) {i : Nat} (h0 : i ≠ 0) {π : List Str}
    (hl : LocatedAt g i π) {q : Loc} (hq : nmWord :: q <+: folder π) : t q = some .dir :=
  (ht q (not_inBin_way (located_inst hg hl) hq) .dir).2 (.inr ⟨rfl, .inr ⟨i, π, h0, hl, hq⟩⟩)

/-- one command changes nothing but command folders -/
theorem linkBin_keeps (hg : Installable pk g) {t : Tree} (ht : Installed pk g t) {i : Nat} (h0 : i ≠ 0) {π : List Str}
    (hl : LocatedAt g i π) {s : Tree} (hs : ∀ p, ¬ InBin p → s p = t p) (b : Str × Loc) :
    ∀ p, ¬ InBin p → linkBin (targetDir g i) s b p = t p := by
  intro p hp
  obtain ⟨σ, nd, hi, rfl⟩ := located_snoc hl h0
  unfold linkBin
  by_cases hx : s (targetDir g i ++ b.2) = none
  · rw [if_pos hx]; exact hs p hp
  · rw [if_neg hx]
    rw [if_neg, if_neg]
    · unfold dirsAbove
      rw [if_neg]
      · exact hs p hp
      · simp only [ne_eq, decide_not, Bool.and_eq_true, Bool.not_eq_true', decide_eq_false_iff_not,
          List.isPrefixOf_iff_prefix, Option.isNone_iff_eq_none]
        rintro ⟨⟨h1, h2⟩, h3⟩
        have h4 : nmWord :: p <+: folder σ ++ [nmWord, binName] ++ [b.1] := by
          rw [← binDir_located hg hl, List.cons_append]
          exact List.cons_prefix_cons.2 ⟨rfl, h1⟩
        rcases List.prefix_concat_iff.1 h4 with h5 | h5
        · rw [← binDir_located hg hl, List.cons_append] at h5
          simp only [List.cons.injEq, true_and] at h5
          exact h2 h5
        · have h6 : folder σ ++ [nmWord, binName] = (folder σ ++ [nmWord]) ++ [binName] := by simp
          rw [h6] at h5
          rcases List.prefix_concat_iff.1 h5 with h7 | h7
          · rw [← h6, ← binDir_located hg hl] at h7
            simp only [List.cons.injEq, true_and] at h7
            rw [h7] at hp
            exact hp (by simpa using binDir_inBin hg hl [])
          · have h8 : nmWord :: p <+: folder (σ ++ [nd.name]) := by
              refine h7.trans ?_
              rw [folder_append, folder_cons]
              exact ⟨nameSegs nd.name ++ folder [], by simp⟩
            rw [hs p hp, way_present hg ht h0 hl h8] at h3
            cases h3
    · rw [List.isPrefixOf_iff_prefix]
      rintro ⟨y, rfl⟩
      exact hp (by rw [List.append_assoc]; exact binDir_inBin hg hl _)
    · rintro rfl
      exact hp (binDir_inBin hg hl _)

theorem linkBins_list_keeps (hg : Installable pk g) {t : Tree} (ht : Installed pk g t) {i : Nat} (h0 : i ≠ 0) {π : List Str}
    (hl : LocatedAt g i π) (bs : List (Str × Loc)) {s : Tree} (hs : ∀ p, ¬ InBin p → s p = t p) :
    ∀ p, ¬ InBin p → bs.foldl (linkBin (targetDir g i)) s p = t p := by
  induction bs generalizing s with
  | nil => exact hs
  | cons b bs ih => exact ih (linkBin_keeps hg ht h0 hl hs b)

theorem linkPkg_keeps (hg : Installable pk g) {t : Tree} (ht : Installed pk g t) {i : Nat} (h0 : i ≠ 0)
    {s : Tree} (hs : ∀ p, ¬ InBin p → s p = t p) : ∀ p, ¬ InBin p → linkPkg pk g s i p = t p := by
  unfold linkPkg
  cases hi : g.nodes[i]? with
  | none => exact hs
  | some nd => exact linkBins_list_keeps hg ht h0 ((locatedAt_iff hg.tree (ord_of hg)).2 ⟨⟨nd, hi⟩, rfl⟩) _ hs

theorem linkBins_keeps (hg : Installable pk g) {t : Tree} (ht : Installed pk g t) {order : List Nat}
    (ho : ∀ i ∈ order, i ≠ 0) : ∀ p, ¬ InBin p → linkBins pk g order t p = t p := by
  unfold linkBins
  have : ∀ s : Tree, (∀ p, ¬ InBin p → s p = t p) → ∀ p, ¬ InBin p → order.foldl (linkPkg pk g) s p = t p := by
    induction order with
    | nil => exact fun s hs => hs
    | cons i order ih =>
      intro s hs
      exact ih (fun j hj => ho j (by simp [hj])) _ (linkPkg_keeps hg ht (ho i (by simp)) hs)
  refine this _ fun p hp => ?_
  rw [if_neg]
  intro h
  exact hp (cleared_inBin h)

theorem linkBins_installed (hg : Installable pk g) {t : Tree} (ht : Installed pk g t) {order : List Nat}
    (ho : ∀ i ∈ order, i ≠ 0) : Installed pk g (linkBins pk g order t) := by
  intro p hp e
  rw [linkBins_keeps hg ht ho p hp]
  exact ht p hp e

/-- a command `b` of the folder at `σ` is there, for one of the packages that declare it -/
def Linked' (pk : Pkgs P) (g : Graph Str P S) (order : List Nat) (σ : List Str) (b : Str) (t : Tree) : Prop :=
  ∃ i nd n x p, i ∈ order ∧ g.nodes[i]? = some nd ∧ LocatedAt g i (σ ++ [n]) ∧ (b, x) ∈ pk.bins nd.pkg ∧
    nmWord :: p = folder σ ++ [nmWord, binName, b] ∧ t p = some (.link (targetDir g i ++ x))

theorem folder_eq_of_snoc2 (hg : Installable pk g) {i j : Nat} {σ σ' : List Str} {n n' : Str} {y y' : List Str}
    (hl : LocatedAt g i (σ ++ [n])) (hl' : LocatedAt g j (σ' ++ [n']))
    (h : folder σ ++ [nmWord, binName] ++ y = folder σ' ++ [nmWord, binName] ++ y') : folder σ = folder σ' := by
  have hb : ∀ {k : Nat} {τ : List Str} {m : Str}, LocatedAt g k (τ ++ [m]) → ¬ Bad (folder τ ++ [nmWord]) := by
    intro k τ m hk hbad
    obtain ⟨q, r, hq⟩ := hbad
    refine not_bad_folder (located_inst hg hk) ⟨q, r ++ nameSegs m, ?_⟩
    rw [folder_append, folder_cons]
    have : folder τ ++ nmWord :: (nameSegs m ++ folder []) = (folder τ ++ [nmWord]) ++ nameSegs m := by simp [folder]
    rw [this, hq]; simp
  have key : ∀ {a b : List Str} {x x' : List Str}, a ++ [nmWord, binName] ++ x = b ++ [nmWord, binName] ++ x' →
      a.length < b.length → Bad (b ++ [nmWord]) := by
    intro a b x x' h hlt
    have h1 : (a ++ [nmWord, binName]) <+: b ++ [nmWord] := by
      have p1 : (a ++ [nmWord, binName]) <+: b ++ [nmWord, binName] ++ x' := by rw [← h]; exact List.prefix_append _ _
      have p2 : b ++ [nmWord] <+: b ++ [nmWord, binName] ++ x' := ⟨binName :: x', by simp⟩
      exact List.prefix_of_prefix_length_le p1 p2 (by simp; omega)
    obtain ⟨r, hr⟩ := h1
    exact ⟨a, r, by rw [← hr]; simp⟩
  rcases Nat.lt_trichotomy (folder σ).length (folder σ').length with hlt | heq | hlt
  · exact absurd (key h hlt) (hb hl')
  · rw [List.append_assoc, List.append_assoc] at h
    exact (List.append_inj h heq).1
  · exact absurd (key h.symm hlt) (hb hl)

/-- linking a command keeps the commands that are there -/
theorem linkBin_linked (hg : Installable pk g) {order : List Nat} {σ : List Str} {b : Str} {s : Tree}
    (h : Linked' pk g order σ b s) {i : Nat} (h0 : i ≠ 0) (hio : i ∈ order) {nd : Node Str P S} (hi : g.nodes[i]? = some nd) {c : Str × Loc}
    (hc : c ∈ pk.bins nd.pkg) : Linked' pk g order σ b (linkBin (targetDir g i) s c) := by
  obtain ⟨j, ndj, n, x, p, hj, hjn, hjl, hjb, hp, hs⟩ := h
  have hl := (locatedAt_iff hg.tree (ord_of hg)).2 ⟨⟨nd, hi⟩, rfl⟩
  obtain ⟨σ', nd', hi', hπ⟩ := located_snoc hl h0
  rw [hi] at hi'; cases hi'
  rw [hπ] at hl
  have hbd := binDir_located hg hl
  unfold linkBin
  split
  · exact ⟨j, ndj, n, x, p, hj, hjn, hjl, hjb, hp, hs⟩
  · by_cases he : p = binDir (targetDir g i) ++ [c.1]
    · have h1 : folder σ ++ [nmWord, binName] ++ [b] = folder σ' ++ [nmWord, binName] ++ [c.1] := by
        rw [← hbd, List.cons_append, ← he, hp]; simp
      have h2 := folder_eq_of_snoc2 hg hjl hl h1
      rw [h2] at h1
      have h3 : b = c.1 := by simpa using h1
      have h4 : σ = σ' := by
        refine (folder_inj (x := []) (y := []) (fun m hm => located_names hg hjl m (by simp [hm]))
          (fun m hm => located_names hg hl m (by simp [hm])) (by simpa using h2) (by simp) (by simp)).1
      subst h4
      refine ⟨i, nd, nd.name, c.2, p, hio, hi, hl, by rw [h3]; exact hc, hp, ?_⟩
      beta_reduce
      rw [if_pos he]
    · refine ⟨j, ndj, n, x, p, hj, hjn, hjl, hjb, hp, ?_⟩
      beta_reduce
      rw [if_neg he, if_neg]
      · unfold dirsAbove; rw [hs]; simp
      · rw [List.isPrefixOf_iff_prefix]
        rintro ⟨y, hy⟩
        have h1 : folder σ ++ [nmWord, binName] ++ [b] = folder σ' ++ [nmWord, binName] ++ (c.1 :: y) := by
          rw [← hbd, List.cons_append]
          rw [List.append_assoc] at hy
          simp only [List.cons_append, List.nil_append] at hy
          rw [hy, hp]; simp
        have h2 := folder_eq_of_snoc2 hg hjl hl h1
        rw [h2] at h1
        have h3 : [b] = c.1 :: y := List.append_cancel_left h1
        simp only [List.cons.injEq] at h3
        rw [← h3.2] at hy
        exact he (by rw [← hy]; simp)

/-- a command file is not in a command folder -/
theorem command_not_inBin (hg : Installable pk g) {i : Nat} {π : List Str} (h0 : i ≠ 0) (hl : LocatedAt g i π) {x : Loc}
    (hx : nmWord ∉ x) : ¬ InBin (targetDir g i ++ x) := by
  have htf := target_folder hg.tree (ord_of hg) h0 hl
  rw [inBin_bad, ← List.cons_append, htf]
  obtain ⟨σ, nd, hi, rfl⟩ := located_snoc hl h0
  rintro ⟨q, r, h⟩
  rcases List.append_eq_append_iff.1 h with ⟨a, h1, h2⟩ | ⟨a, h1, h2⟩
  · exact hx (by rw [h2]; simp)
  · cases a with
    | nil => exact hx (by rw [← (by simpa using h2 : nmWord :: binName :: r = x)]; simp)
    | cons z a =>
      simp only [List.cons_append, List.cons.injEq] at h2
      obtain ⟨rfl, h2⟩ := h2
      cases a with
      | nil =>
        -- the last folder name would be node_modules
        have hlast := congrArg List.getLast? h1
        rw [folder_append, folder_cons] at hlast
        obtain ⟨hn, _, _, _, hs⟩ := located_inst hg hl nd.name (by simp)
        rcases hn with ⟨h1', h2', h3', h4', h5'⟩ | ⟨s, t, hst, hs1, ht, ht2, ht3⟩
        · rw [nameSegs_plain h1'] at hlast
          simp [folder] at hlast
          exact h3' hlast
        · rw [hst, nameSegs_scoped hs1 ht] at hlast
          simp [folder] at hlast
          rw [hlast] at hst
          exact hs s hst
      | cons z a =>
        simp only [List.cons_append, List.cons.injEq] at h2
        obtain ⟨rfl, h2⟩ := h2
        exact not_bad_folder (located_inst hg hl) ⟨q, a, h1⟩

/-- all commands of the packages in the list are linked -/
theorem linkBins_linked (hg : Installable pk g) {t : Tree} (ht : Installed pk g t) {order : List Nat}
    (ho : ∀ i ∈ order, i ≠ 0) {i : Nat} (hio : i ∈ order) {nd : Node Str P S} (hi : g.nodes[i]? = some nd) {σ : List Str}
    {n : Str} (hl : LocatedAt g i (σ ++ [n])) {b : Str} {x : Loc} (hb : (b, x) ∈ pk.bins nd.pkg) (hx : nmWord ∉ x)
    (hc : pk.content nd.pkg x ≠ none) : Linked' pk g order σ b (linkBins pk g order t) := by
  have h0 := ho i hio
  have htf := target_folder hg.tree (ord_of hg) h0 hl
  have hfile : t (targetDir g i ++ x) ≠ none := by
    cases hcx : pk.content nd.pkg x with
    | none => exact absurd hcx hc
    | some e =>
      rw [(ht _ (command_not_inBin hg h0 hl hx) e).2 (.inl ⟨i, nd, _, x, h0, hi, hl, by rw [← List.cons_append, htf], hcx⟩)]
      simp
  unfold linkBins
  have hstart : ∀ p, ¬ InBin p → (fun p => if cleared p then none else t p) p = t p := by
    intro p hp
    simp only
    rw [if_neg]
    intro h
    exact hp (cleared_inBin h)
  generalize (fun p => if cleared p then none else t p) = s0 at hstart
  -- keeping it once there
  have keepL : ∀ (j : Nat) (ndj : Node Str P S) (bs : List (Str × Loc)) (s : Tree), j ≠ 0 → j ∈ order → g.nodes[j]? = some ndj →
      (∀ c ∈ bs, c ∈ pk.bins ndj.pkg) → Linked' pk g order σ b s → Linked' pk g order σ b (bs.foldl (linkBin (targetDir g j)) s) := by
    intro j ndj bs s hj0 hjo hjn hbs
    induction bs generalizing s with
    | nil => exact id
    | cons c bs ih =>
      intro hs
      exact ih _ (fun c' hc' => hbs c' (by simp [hc'])) (linkBin_linked hg hs hj0 hjo hjn (hbs c (by simp)))
  have keepP : ∀ (l : List Nat) (s : Tree), (∀ j ∈ l, j ∈ order) → Linked' pk g order σ b s →
      Linked' pk g order σ b (l.foldl (linkPkg pk g) s) := by
    intro l
    induction l with
    | nil => exact fun s _ hs => hs
    | cons j l ih =>
      intro s hl hs
      refine ih _ (fun k hk => hl k (by simp [hk])) ?_
      unfold linkPkg
      cases hj : g.nodes[j]? with
      | none => exact hs
      | some ndj => exact keepL j ndj _ s (ho j (hl j (by simp))) (hl j (by simp)) hj (fun c hc => hc) hs
  -- reaching the package
  have reach : ∀ (l : List Nat) (s : Tree), (∀ j ∈ l, j ∈ order) → i ∈ l → (∀ p, ¬ InBin p → s p = t p) →
      Linked' pk g order σ b (l.foldl (linkPkg pk g) s) := by
    intro l
    induction l with
    | nil => intro s _ h; simp at h
    | cons j l ih =>
      intro s hlo hmem hs
      by_cases hji : j = i
      · subst hji
        refine keepP l _ (fun k hk => hlo k (by simp [hk])) ?_
        unfold linkPkg
        rw [hi]
        -- reaching the command
        have : ∀ (bs : List (Str × Loc)) (s : Tree), (∀ c ∈ bs, c ∈ pk.bins nd.pkg) → (b, x) ∈ bs → (∀ p, ¬ InBin p → s p = t p) →
            Linked' pk g order σ b (bs.foldl (linkBin (targetDir g j)) s) := by
          intro bs
          induction bs with
          | nil => intro s _ h; simp at h
          | cons c bs ihb =>
            intro s hcs hm hs
            by_cases hcb : c = (b, x)
            · subst hcb
              refine keepL j nd bs _ h0 hio hi (fun c hc => hcs c (by simp [hc])) ?_
              refine ⟨j, nd, n, x, binDir (targetDir g j) ++ [b], hio, hi, hl, hb, ?_, ?_⟩
              · rw [← List.cons_append, binDir_located hg hl]; simp
              · unfold linkBin
                rw [if_neg]
                · simp
                · rw [hs _ (command_not_inBin hg h0 hl hx)]; exact hfile
            · refine ihb _ (fun c hc => hcs c (by simp [hc])) ?_ (linkBin_keeps hg ht h0 hl hs c)
              rcases List.mem_cons.1 hm with h | h
              · exact absurd h.symm hcb
              · exact h
        exact this _ s (fun c hc => hc) hb hs
      · refine ih _ (fun k hk => hlo k (by simp [hk])) ?_ (linkPkg_keeps hg ht (ho j (hlo j (by simp))) hs)
        rcases List.mem_cons.1 hmem with h | h
        · exact absurd h.symm hji
        · exact h
  exact reach order s0 (fun j hj => hj) hio hstart

end Hoisted
end Oro
