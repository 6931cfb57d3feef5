import Verif.Proofs.Lockfile
/- Path keys: joining is injective, npm keys split back; `to_lockfile` on reachable trees. -/

set_option linter.unusedSectionVars false

namespace Oro

/-- empty, or starting with a slash -/
def SlashTail (r : Str) : Prop := r = [] ∨ ∃ r', r = '/' :: r'

theorem span_slash {a b r r' : Str} (ha : '/' ∉ a) (hb : '/' ∉ b) (hr : SlashTail r) (hr' : SlashTail r')
    (h : a ++ r = b ++ r') : a = b ∧ r = r' := by
  induction a generalizing b with
  | nil =>
    cases b with
    | nil => exact ⟨rfl, h⟩
    | cons y b =>
      simp only [List.nil_append] at h
      subst h
      rcases hr with hr | ⟨z, hr⟩
      · simp at hr
      · simp at hr; simp [hr.1] at hb
  | cons x a ih =>
    cases b with
    | nil =>
      simp only [List.nil_append] at h
      subst h
      rcases hr' with hr | ⟨z, hr⟩
      · simp at hr
      · simp at hr; simp [hr.1] at ha
    | cons y b =>
      simp only [List.cons_append, List.cons.injEq] at h
      simp only [List.mem_cons, not_or] at ha hb
      obtain ⟨h1, h2⟩ := ih ha.2 hb.2 h.2
      exact ⟨by rw [h.1, h1], h2⟩

theorem validName_split {n m r r' : Str} (hn : ValidName n) (hm : ValidName m) (hr : SlashTail r) (hr' : SlashTail r')
    (h : n ++ r = m ++ r') : n = m ∧ r = r' := by
  have mixed : ∀ {n r s t r' : Str}, '/' ∉ n → n.head? ≠ some '@' → SlashTail r →
      n ++ r ≠ ('@' :: s ++ '/' :: t) ++ r' := by
    intro n r s t r' _ h2 h3 hc
    cases n with
    | nil =>
      rcases h3 with rfl | ⟨z, rfl⟩
      · simp at hc
      · simp at hc
    | cons x n => simp at hc h2; exact h2 hc.1
  rcases hn with ⟨h1, h2⟩ | ⟨s, t, rfl, h1, h2⟩
  · rcases hm with ⟨h3, h4⟩ | ⟨s', t', rfl, h3, h4⟩
    · exact span_slash h1 h3 hr hr' h
    · exact absurd h (mixed h1 h2 hr)
  · rcases hm with ⟨h3, h4⟩ | ⟨s', t', rfl, h3, h4⟩
    · exact absurd h.symm (mixed h3 h4 hr')
    · simp only [List.cons_append, List.append_assoc, List.cons.injEq, true_and] at h
      obtain ⟨h5, h6⟩ := span_slash h1 h3 (Or.inr ⟨_, rfl⟩) (Or.inr ⟨_, rfl⟩) h
      simp only [List.cons.injEq, true_and] at h6
      obtain ⟨h7, h8⟩ := span_slash h2 h4 hr hr' h6
      exact ⟨by rw [h5, h7], h8⟩

/-- the rest of a joined path after its first name -/
def joinTail : List Str → Str
  | [] => []
  | b :: l => nmSep ++ joinPath (b :: l)

theorem joinPath_cons (a : Str) (l : List Str) : joinPath (a :: l) = a ++ joinTail l := by
  cases l <;> simp [joinPath, joinTail]

theorem joinTail_slash (l : List Str) : SlashTail (joinTail l) := by
  cases l with
  | nil => exact Or.inl rfl
  | cons b l => exact Or.inr ⟨nmWord ++ ['/'] ++ joinPath (b :: l), rfl⟩

theorem joinPath_inj {p q : List Str} (hp : ∀ n ∈ p, ValidName n) (hq : ∀ n ∈ q, ValidName n) (h0 : p ≠ [])
    (h1 : q ≠ []) (h : joinPath p = joinPath q) : p = q := by
  induction p generalizing q with
  | nil => exact absurd rfl h0
  | cons a p ih =>
    cases q with
    | nil => exact absurd rfl h1
    | cons b q =>
      rw [joinPath_cons, joinPath_cons] at h
      obtain ⟨h2, h3⟩ := validName_split (hp a (by simp)) (hq b (by simp)) (joinTail_slash p) (joinTail_slash q) h
      subst h2
      cases p with
      | nil =>
        cases q with
        | nil => rfl
        | cons c q => simp [joinTail, nmSep] at h3
      | cons c p =>
        cases q with
        | nil => simp [joinTail, nmSep] at h3
        | cons d q =>
          simp only [joinTail, List.append_cancel_left_eq] at h3
          rw [ih (fun n hn => hp n (List.mem_cons_of_mem _ hn)) (fun n hn => hq n (List.mem_cons_of_mem _ hn)) (by simp)
            (by simp) h3]

/-! ### splitting npm keys -/

theorem splitAux_ne_nil (sep : Str) (k : Nat) (s : Str) : splitAux sep k s ≠ [] := by
  cases k with
  | zero => simp [splitAux]
  | succ k =>
    simp only [splitAux]
    split
    · simp
    · split
      · simp
      · split <;> simp

theorem splitAux_nomatch (sep : Str) (a : Str) : ∀ (rest : Str) (k : Nat),
    (∀ u v : Str, a = u ++ v → v ≠ [] → sep.isPrefixOf (v ++ rest) = false) → a.length ≤ k →
    splitAux sep k (a ++ rest) = match splitAux sep (k - a.length) rest with
      | [] => [a]
      | h :: t => (a ++ h) :: t := by
  induction a with
  | nil =>
    intro rest k _ _
    simp only [List.nil_append, List.length_nil, Nat.sub_zero]
    cases h : splitAux sep k rest with
    | nil => exact absurd h (splitAux_ne_nil _ _ _)
    | cons h t => rfl
  | cons x a ih =>
    intro rest k hno hk
    cases k with
    | zero => simp at hk
    | succ k =>
      have hx := hno [] (x :: a) rfl (by simp)
      simp only [List.cons_append] at hx ⊢
      rw [splitAux, if_neg (by simp [hx])]
      rw [ih rest k (fun u v huv hv => hno (x :: u) v (by simp [huv]) hv) (by simpa using hk)]
      simp only [List.length_cons, Nat.add_sub_add_right]
      split <;> rename_i h <;> split at h <;> simp_all

theorem splitAux_sep (sep : Str) (k : Nat) (rest : Str) :
    splitAux sep (k + 1) (sep ++ rest) = [] :: splitAux sep k rest := by
  have h : sep.isPrefixOf (sep ++ rest) = true := List.isPrefixOf_iff_prefix.mpr (List.prefix_append _ _)
  rw [splitAux.eq_def]; simp only [h, if_true, List.drop_left]

/-- an npm-style name contains no separator, even when followed by another one -/
theorem npmName_nosep {n : Str} (hn : NpmName n) {rest : Str} (hr : SlashTail rest) (u v : Str) (h : n = u ++ v)
    (hv : v ≠ []) : nmSep.isPrefixOf (v ++ rest) = false := by
  by_contra hc
  rw [Bool.not_eq_false, List.isPrefixOf_iff_prefix] at hc
  obtain ⟨w, hw⟩ := hc
  have hnm : '/' ∉ nmWord := by decide
  rw [nmSep] at hw
  cases v with
  | nil => exact hv rfl
  | cons x v =>
    simp only [List.cons_append, List.cons.injEq] at hw
    obtain ⟨hx, hw⟩ := hw
    subst hx
    obtain ⟨hne, hn | ⟨s, t, hst, hs, ht, htn⟩⟩ := hn
    · exact hn.1 (by rw [h]; simp)
    · -- the slash is the one between scope and name
      have hsplit : ('@' :: s) ++ ('/' :: t) = u ++ ('/' :: v) := by rw [← h, hst]
      have hu : '/' ∉ u := by
        intro hu
        obtain ⟨u1, u2, rfl⟩ := List.append_of_mem hu
        have e1 : ('/' :: t).count '/' = 1 := by simp [List.count_eq_zero.mpr ht]
        have e2 : ('@' :: s).count '/' = 0 := List.count_eq_zero.mpr (by simp [hs])
        have := congrArg (List.count '/') hsplit
        simp only [List.count_append, e1, e2, List.count_cons_self] at this
        omega
      obtain ⟨_, h2⟩ := span_slash (a := '@' :: s) (b := u) (by simp [hs]) hu (Or.inr ⟨_, rfl⟩) (Or.inr ⟨_, rfl⟩) hsplit
      simp only [List.cons.injEq, true_and] at h2
      subst h2
      rw [List.append_assoc] at hw
      exact htn (span_slash hnm ht (Or.inr ⟨_, rfl⟩) hr hw).1.symm

theorem splitAux_joinPath (l : List Str) : ∀ (a : Str) (k : Nat), (∀ n ∈ a :: l, NpmName n) →
    (joinPath (a :: l)).length ≤ k → splitAux nmSep k (joinPath (a :: l)) = a :: l := by
  induction l with
  | nil =>
    intro a k h hk
    have := splitAux_nomatch nmSep a [] k
      (fun u v huv hv => npmName_nosep (h a (by simp)) (Or.inl rfl) u v huv hv) (by simpa [joinPath] using hk)
    simp only [List.append_nil] at this
    rw [joinPath, this]
    cases k - a.length <;> simp [splitAux, nmSep]
  | cons b l ih =>
    intro a k h hk
    rw [joinPath_cons] at hk ⊢
    rw [splitAux_nomatch nmSep a _ k
      (fun u v huv hv => npmName_nosep (h a (by simp)) (joinTail_slash _) u v huv hv) (by simp at hk; omega)]
    have hlen : nmSep.length = 14 := by decide
    obtain ⟨j, hj⟩ : ∃ j, k - a.length = j + 1 := by
      refine ⟨k - a.length - 1, ?_⟩
      simp only [joinTail, List.length_append, hlen] at hk
      omega
    rw [hj, joinTail, splitAux_sep, ih b j (fun n hn => h n (List.mem_cons_of_mem _ hn)) (by
      simp only [joinTail, List.length_append, hlen] at hk
      omega)]
    simp

theorem npmKey_eq (a : Str) (l : List Str) : '/' :: npmKey (a :: l) = nmSep ++ joinPath (a :: l) := by
  induction l generalizing a with
  | nil => simp [npmKey, nmSep, joinPath]
  | cons b l ih =>
    rw [npmKey, ih b, joinPath_cons a, joinTail]
    simp [nmSep]

/-- npm's key for a location is read back as that location -/
theorem npmPath_npmKey {π : List Str} (h : ∀ n ∈ π, NpmName n) (h0 : π ≠ []) : npmPath (npmKey π) = π := by
  cases π with
  | nil => exact absurd rfl h0
  | cons a l =>
    unfold npmPath splitStr
    rw [npmKey_eq a l]
    have hlen : nmSep.length = 14 := by decide
    obtain ⟨j, hj⟩ : ∃ j, (nmSep ++ joinPath (a :: l)).length = j + 1 := ⟨13 + (joinPath (a :: l)).length, by
      simp only [List.length_append, hlen]; omega⟩
    rw [hj, splitAux_sep, splitAux_joinPath l a j h (by simp only [List.length_append, hlen] at hj; omega)]
    rfl

theorem npmPath_nil : npmPath [] = [] := by decide

end Oro
