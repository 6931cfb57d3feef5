import Verif.Model.Startup
/- C50 (logs), C51 (option strings), C57 (the project's folder). -/

set_option linter.unusedSectionVars false

namespace Oro
namespace Startup

/-! ### option strings -/

theorem find_none {c : Char} {s : Str} : find c s = none ↔ c ∉ s := by
  induction s with
  | nil => simp [find]
  | cons d s ih =>
    rw [find]
    split
    · rename_i h; simp [h]
    · rename_i h
      rw [Option.map_eq_none_iff, ih, List.mem_cons, not_or]
      exact ⟨fun g => ⟨fun e => h e.symm, g⟩, fun g => g.2⟩

theorem find_some {c : Char} {s : Str} {n : Nat} : find c s = some n ↔ ∃ a b, s = a ++ c :: b ∧ c ∉ a ∧ a.length = n := by
  induction s generalizing n with
  | nil => simp [find]
  | cons d s ih =>
    rw [find]
    split
    · rename_i h
      constructor
      · intro e
        cases e
        exact ⟨[], s, by simp [h], by simp, rfl⟩
      · rintro ⟨a, b, e, ha, rfl⟩
        cases a with
        | nil => rfl
        | cons x a => cases e; exact absurd List.mem_cons_self (h ▸ ha)
    · rename_i h
      rw [Option.map_eq_some_iff]
      constructor
      · rintro ⟨m, hm, rfl⟩
        obtain ⟨a, b, e, ha, rfl⟩ := ih.1 hm
        exact ⟨d :: a, b, by simp [e], by simp only [List.mem_cons, not_or]; exact ⟨fun e => h e.symm, ha⟩, rfl⟩
      · rintro ⟨a, b, e, ha, rfl⟩
        cases a with
        | nil => cases e; exact absurd rfl h
        | cons x a =>
          cases e
          simp only [List.mem_cons, not_or] at ha
          exact ⟨a.length, ih.2 ⟨a, b, rfl, ha.2, rfl⟩, rfl⟩

/-- C51 (`KEY=VALUE`): the key is the text before the first `=`, the value what follows, read by its own reader. -/
theorem C51_pair {α : Type} (parse : Str → Option α) (key value : Str) (h : '=' ∉ key) :
    keyValue parse (key ++ '=' :: value) = match parse value with | some v => .ok (key, v) | none => .err := by
  have hf : find '=' (key ++ '=' :: value) = some key.length := find_some.2 ⟨key, value, rfl, h, rfl⟩
  unfold keyValue
  rw [hf]
  dsimp only
  have e1 : (key ++ '=' :: value).drop (key.length + 1) = value := by
    rw [show key ++ '=' :: value = (key ++ ['=']) ++ value by simp, List.drop_append_of_le_length (by simp)]
    simp
  rw [e1, List.take_append_of_le_length (Nat.le_refl _), List.take_length]
  cases parse value <;> rfl

/-- C51 (`KEY=VALUE`): it never crashes, and it is an error when there is no `=`. -/
theorem C51_pair_error {α : Type} (parse : Str → Option α) (s : Str) :
    keyValue parse s ≠ .panic ∧ ('=' ∉ s → keyValue parse s = .err) := by
  constructor
  · intro h
    unfold keyValue at h
    split at h
    · cases h
    · split at h <;> cases h
  · intro h
    unfold keyValue
    rw [find_none.2 h]

theorem slice_mid (p t r : Str) (x : Char) : slice (p ++ x :: (t ++ r)) (p.length + 1) (p.length + 1 + t.length) = some t := by
  unfold slice
  rw [if_pos (by omega)]
  have e : p ++ x :: (t ++ r) = (p ++ [x]) ++ (t ++ r) := by simp
  have hl : (p ++ [x]).length = p.length + 1 := by simp
  rw [e, ← hl, List.take_length_add_append, List.drop_append_of_le_length (Nat.le_refl _), List.drop_length, List.nil_append,
    List.take_append_of_le_length (Nat.le_refl _), List.take_length]

/-- C51 (`{KEY}SUBKEY=VALUE`): the text in braces, the text up to the first `=`, and the rest; text before the brace is ignored. -/
theorem C51_nested (pre key sub value : Str) (h1 : '{' ∉ pre) (h2 : '}' ∉ pre ++ key) (h3 : '=' ∉ pre ++ key ++ sub) :
    nested (pre ++ '{' :: (key ++ '}' :: (sub ++ '=' :: value))) = .ok (key, sub, value) := by
  simp only [List.mem_append, not_or] at h2 h3
  have f1 : find '{' (pre ++ '{' :: (key ++ '}' :: (sub ++ '=' :: value))) = some pre.length := find_some.2 ⟨_, _, rfl, h1, rfl⟩
  have f2 : find '}' (pre ++ '{' :: (key ++ '}' :: (sub ++ '=' :: value))) = some (pre.length + 1 + key.length) := by
    refine find_some.2 ⟨pre ++ '{' :: key, sub ++ '=' :: value, by simp, ?_, by simp; omega⟩
    simp only [List.mem_append, List.mem_cons, not_or]
    exact ⟨h2.1, by decide, h2.2⟩
  have f3 : find '=' (pre ++ '{' :: (key ++ '}' :: (sub ++ '=' :: value))) = some (pre.length + 1 + key.length + 1 + sub.length) := by
    refine find_some.2 ⟨pre ++ '{' :: (key ++ '}' :: sub), value, by simp, ?_, by simp; omega⟩
    simp only [List.mem_append, List.mem_cons, not_or]
    exact ⟨h3.1.1, by decide, h3.1.2, by decide, h3.2⟩
  unfold nested
  rw [f1, f2, f3]
  dsimp only
  rw [slice_mid]
  dsimp only
  have s2 := slice_mid (pre ++ '{' :: key) sub ('=' :: value) '}'
  have e : (pre ++ '{' :: key) ++ '}' :: (sub ++ '=' :: value) = pre ++ '{' :: (key ++ '}' :: (sub ++ '=' :: value)) := by simp
  have hl : (pre ++ '{' :: key).length = pre.length + 1 + key.length := by simp; omega
  rw [e, hl] at s2
  rw [s2]
  dsimp only
  have e' : pre ++ '{' :: (key ++ '}' :: (sub ++ '=' :: value)) = (pre ++ '{' :: (key ++ '}' :: (sub ++ ['=']))) ++ value := by simp
  have hl' : (pre ++ '{' :: (key ++ '}' :: (sub ++ ['=']))).length = pre.length + 1 + key.length + 1 + sub.length + 1 := by simp; omega
  rw [e', ← hl', List.drop_append_of_le_length (Nat.le_refl _), List.drop_length, List.nil_append]

/-- C51 (`{KEY}SUBKEY=VALUE`): it is an error exactly when one of the three separators is missing. -/
theorem C51_nested_error (s : Str) : nested s = .err ↔ '{' ∉ s ∨ '}' ∉ s ∨ '=' ∉ s := by
  unfold nested
  constructor
  · intro h
    split at h
    · rename_i h1; exact .inl (find_none.1 h1)
    · split at h
      · rename_i h1; exact .inr (.inl (find_none.1 h1))
      · split at h
        · rename_i h1; exact .inr (.inr (find_none.1 h1))
        · split at h
          · cases h
          · split at h <;> cases h
  · intro h
    split
    · rfl
    · rename_i g1
      split
      · rfl
      · rename_i g2
        split
        · rfl
        · rename_i g3
          exfalso
          rcases h with h | h | h
          · rw [find_none.2 h] at g1; cases g1
          · rw [find_none.2 h] at g2; cases g2
          · rw [find_none.2 h] at g3; cases g3

/-- C51 is false of the code for `{KEY}SUBKEY=VALUE`: it crashes exactly when the first closing brace comes before the first
opening brace, or the first `=` before the first closing brace, with all three present. -/
theorem C51_nested_panics (s : Str) : nested s = .panic ↔
    ∃ o c e, find '{' s = some o ∧ find '}' s = some c ∧ find '=' s = some e ∧ (c < o ∨ e < c) := by
  have hne : ∀ {x y : Char} {n : Nat}, x ≠ y → find x s = some n → find y s = some n → False := by
    intro x y n hxy h1 h2
    obtain ⟨a, b, e, _, hl⟩ := find_some.1 h1
    obtain ⟨a', b', e', _, hl'⟩ := find_some.1 h2
    have := List.append_inj (e.symm.trans e') (by omega)
    exact hxy (List.cons.inj this.2).1
  unfold nested
  constructor
  · intro h
    split at h
    · cases h
    · rename_i o g1
      split at h
      · cases h
      · rename_i c g2
        split at h
        · cases h
        · rename_i e g3
          refine ⟨o, c, e, g1, g2, g3, ?_⟩
          split at h
          · rename_i g4
            unfold slice at g4
            split at g4
            · cases g4
            · have : o ≠ c := fun x => hne (by decide) g1 (x ▸ g2)
              exact .inl (by omega)
          · split at h
            · rename_i g4
              unfold slice at g4
              split at g4
              · cases g4
              · have : c ≠ e := fun x => hne (by decide) g2 (x ▸ g3)
                exact .inr (by omega)
            · cases h
  · rintro ⟨o, c, e, g1, g2, g3, h⟩
    rw [g1, g2, g3]
    dsimp only
    rcases h with h | h
    · have : slice s (o + 1) c = none := by unfold slice; rw [if_neg (by omega)]
      rw [this]
    · have h2 : slice s (c + 1) e = none := by unfold slice; rw [if_neg (by omega)]
      rw [h2]
      cases slice s (o + 1) c <;> rfl

/-- C51 is false of the code: credentials for an address that contains `=` crash the program. -/
theorem C51_nested_fails (key sub value : Str) (h1 : '=' ∈ key) (h2 : '}' ∉ key) :
    nested ('{' :: (key ++ '}' :: (sub ++ '=' :: value))) = .panic := by
  refine (C51_nested_panics _).2 ?_
  obtain ⟨a, b, rfl, ha⟩ := List.eq_append_cons_of_mem h1
  refine ⟨0, 1 + (a ++ '=' :: b).length, 1 + a.length, ?_, ?_, ?_, .inr (by simp)⟩
  · exact find_some.2 ⟨[], _, rfl, by simp, rfl⟩
  · exact find_some.2 ⟨'{' :: (a ++ '=' :: b), sub ++ '=' :: value, by simp, by
      rw [List.mem_cons, not_or]; exact ⟨by decide, h2⟩, by simp; omega⟩
  · exact find_some.2 ⟨'{' :: a, b ++ '}' :: (sub ++ '=' :: value), by simp, by
      rw [List.mem_cons, not_or]; exact ⟨by decide, ha⟩, by simp; omega⟩

/-- cases that meet the hypotheses -/
example : nested "{r.example}token=a=b".toList = .ok ("r.example".toList, "token".toList, "a=b".toList) ∧
    nested "{r.example/?a=b}token=x".toList = .panic ∧ nested "}{=".toList = .panic ∧ nested "token=x".toList = .err ∧
    keyValue some "@a=b=c".toList = .ok ("@a".toList, "b=c".toList) := by decide

/-! ### logs -/

/-- C50: after a successful cleaning, exactly the entries with the greatest names remain: four of them if there were five or
more, all of them otherwise. Stated for a folder with distinct names in any order. -/
theorem C50_clean {l : List Entry} (hd : (l.map (·.name)).Nodup) (hf : ∀ e ∈ l, e.file = true) :
    ∃ kept, cleanOldLogs (some l) = (true, kept) ∧ kept.length = min l.length 4 ∧ kept.Nodup ∧ (∀ e ∈ kept, e ∈ l) ∧
      (∀ e ∈ l, e ∉ kept → ∀ k ∈ kept, strLe e.name k.name = true ∧ e.name ≠ k.name) ∧ (l.length < 5 → ∀ e ∈ l, e ∈ kept) := by
  have hperm := sortBy_perm (fun a b : Entry => strLe a.name b.name) l
  have hsort : (sortBy (fun a b : Entry => strLe a.name b.name) l).Pairwise fun x y => strLe x.name y.name = true :=
    sortBy_sorted (le := fun a b : Entry => strLe a.name b.name) (fun a b => strLe_total a.name b.name) (fun a b c => strLe_trans a.name b.name c.name) l
  have hd' : ((sortBy (fun a b : Entry => strLe a.name b.name) l).map (·.name)).Nodup := (hperm.map _).nodup_iff.2 hd
  have key : ∀ m : List Entry, m.Pairwise (fun x y => strLe x.name y.name = true) → (m.map (·.name)).Nodup → (∀ e ∈ m, e.file = true) →
      ∃ kept, cleanLoop m = (true, kept) ∧ kept.length = min m.length 4 ∧ kept.Nodup ∧ (∀ e ∈ kept, e ∈ m) ∧
        (∀ e ∈ m, e ∉ kept → ∀ k ∈ kept, strLe e.name k.name = true ∧ e.name ≠ k.name) ∧ (m.length < 5 → ∀ e ∈ m, e ∈ kept) := by
    intro m
    induction m with
    | nil => intro _ _ _; exact ⟨[], rfl, rfl, List.nodup_nil, by simp, by simp, by simp⟩
    | cons a m ih =>
      intro hs hn hfm
      rw [cleanLoop]
      split
      · rename_i hlen
        rw [if_pos (hfm a List.mem_cons_self)]
        rw [List.pairwise_cons] at hs
        rw [List.map_cons, List.nodup_cons] at hn
        obtain ⟨kept, h1, h2, h3, h4, h5, h6⟩ := ih hs.2 hn.2 fun e he => hfm e (List.mem_cons_of_mem _ he)
        simp only [List.length_cons] at hlen ⊢
        refine ⟨kept, h1, by omega, h3, fun e he => List.mem_cons_of_mem _ (h4 e he), ?_, by omega⟩
        intro e he hne k hk
        rcases List.mem_cons.1 he with rfl | he
        · exact ⟨hs.1 k (h4 k hk), fun h => hn.1 (h ▸ List.mem_map_of_mem (h4 k hk))⟩
        · exact h5 e he hne k hk
      · rename_i hlen
        refine ⟨a :: m, rfl, by simp only [List.length_cons] at hlen ⊢; omega, List.Nodup.of_map _ hn, fun e he => he, ?_, fun _ e he => he⟩
        intro e he hne
        exact absurd he hne
  obtain ⟨kept, h1, h2, h3, h4, h5, h6⟩ := key _ hsort hd' fun e he => hf e (hperm.mem_iff.1 he)
  rw [hperm.length_eq] at h2 h6
  exact ⟨kept, h1, h2, h3, fun e he => hperm.mem_iff.1 (h4 e he), fun e he => h5 e (hperm.mem_iff.2 he),
    fun h e he => h6 h e (hperm.mem_iff.2 he)⟩

theorem cleanLoop_subset : ∀ m : List Entry, ∀ e ∈ (cleanLoop m).2, e ∈ m := by
  intro m
  induction m with
  | nil => simp [cleanLoop]
  | cons a m ih =>
    intro e he
    rw [cleanLoop] at he
    split at he
    · split at he
      · exact List.mem_cons_of_mem _ (ih e he)
      · exact he
    · exact he

/-- C50: nothing is created, folders are never removed, and with fewer than five entries nothing is removed and the cleaning
succeeds, whatever the entries are. -/
theorem C50_safe (l : List Entry) :
    (∀ e ∈ (cleanOldLogs (some l)).2, e ∈ l) ∧ (∀ e ∈ l, e.file = false → e ∈ (cleanOldLogs (some l)).2) ∧
      (l.length < 5 → (cleanOldLogs (some l)).1 = true ∧ ∀ e ∈ l, e ∈ (cleanOldLogs (some l)).2) := by
  have hperm := sortBy_perm (fun a b : Entry => strLe a.name b.name) l
  refine ⟨fun e he => hperm.mem_iff.1 (cleanLoop_subset _ e he), ?_, ?_⟩
  · intro e he hf
    have : ∀ m : List Entry, e ∈ m → e ∈ (cleanLoop m).2 := by
      intro m
      induction m with
      | nil => simp
      | cons a m ih =>
        intro hm
        rw [cleanLoop]
        split
        · split
          · rename_i ha
            rcases List.mem_cons.1 hm with rfl | hm
            · rw [hf] at ha; cases ha
            · exact ih hm
          · exact hm
        · exact hm
    exact this _ (hperm.mem_iff.2 he)
  · intro hl
    have : ∀ m : List Entry, m.length < 5 → cleanLoop m = (true, m) := by
      intro m hm
      cases m with
      | nil => rfl
      | cons a m => rw [cleanLoop, if_neg (by simp only [List.length_cons] at hm ⊢; omega)]
    unfold cleanOldLogs
    dsimp only
    rw [this _ (by rw [hperm.length_eq]; exact hl)]
    exact ⟨rfl, fun e he => hperm.mem_iff.2 he⟩

/-- C50 is false of the code when a folder that sorts first is among five or more entries: cleaning fails, removes nothing, and so
every command fails from then on. -/
theorem C50_folder_fails {l : List Entry} {d : Entry} (hd : d ∈ l) (hf : d.file = false) (hlen : 5 ≤ l.length)
    (hfirst : ∀ e ∈ l, e ≠ d → strLe e.name d.name = false) :
    (cleanOldLogs (some l)).1 = false ∧ (cleanOldLogs (some l)).2.Perm l := by
  have hperm := sortBy_perm (fun a b : Entry => strLe a.name b.name) l
  have hsort : (sortBy (fun a b : Entry => strLe a.name b.name) l).Pairwise fun x y => strLe x.name y.name = true :=
    sortBy_sorted (le := fun a b : Entry => strLe a.name b.name) (fun a b => strLe_total a.name b.name) (fun a b c => strLe_trans a.name b.name c.name) l
  unfold cleanOldLogs
  dsimp only
  cases hm : sortBy (fun a b : Entry => strLe a.name b.name) l with
  | nil => rw [hm] at hperm; rw [← hperm.length_eq] at hlen; simp at hlen
  | cons a m =>
    rw [hm] at hperm hsort
    have ha : a = d := Classical.byContradiction fun hne => by
      have h1 := hfirst a (hperm.mem_iff.1 List.mem_cons_self) hne
      rcases List.mem_cons.1 (hperm.mem_iff.2 hd) with h | h
      · exact hne h.symm
      · rw [(List.pairwise_cons.1 hsort).1 d h] at h1; cases h1
    subst ha
    rw [cleanLoop, if_pos (by rw [hperm.length_eq]; exact hlen), if_neg (by rw [hf]; simp)]
    exact ⟨rfl, hperm⟩

/-- C50: a missing folder of logs stops nothing: cleaning succeeds, whatever the reason that it can not be read. -/
theorem C50_missing : (cleanOldLogs none).1 = true := rfl

/-- cases that meet the hypotheses: six logs, and five logs with a folder in front -/
example : cleanOldLogs (some ("dafecb".toList.map fun c => ⟨[c], true⟩)) = (true, "cdef".toList.map fun c => ⟨[c], true⟩) ∧
    (cleanOldLogs (some (⟨['_'], false⟩ :: "dafe".toList.map fun c => ⟨[c], true⟩))).1 = false := by decide

/-! ### the project -/

/-- C57: the project is the innermost folder, from the current one outwards, that has a folder `node_modules` or a file
`package.json`; there is none exactly when no folder on the way has. Folders are given by their names, innermost first. -/
theorem C57_root (marks : List Str → Marks) (cwd : List Str) :
    (∀ r, pkgRoot marks cwd = some r ↔ (r <:+ cwd ∧ ((marks r).modules = true ∨ (marks r).manifest = true) ∧
      ∀ q, q <:+ cwd → r.length < q.length → (marks q).modules = false ∧ (marks q).manifest = false)) ∧
    (pkgRoot marks cwd = none ↔ ∀ q, q <:+ cwd → (marks q).modules = false ∧ (marks q).manifest = false) := by
  have hb : ∀ q, ((marks q).modules || (marks q).manifest) = true ↔ ((marks q).modules = true ∨ (marks q).manifest = true) := by
    intro q; simp
  have hb' : ∀ q, ¬ ((marks q).modules || (marks q).manifest) = true ↔ ((marks q).modules = false ∧ (marks q).manifest = false) := by
    intro q; simp
  induction cwd with
  | nil =>
    unfold pkgRoot
    constructor
    · intro r
      split
      · rename_i h
        constructor
        · intro e
          cases e
          exact ⟨List.suffix_refl _, (hb _).1 h, fun q hq hl => by rw [List.suffix_nil.1 hq] at hl; exact absurd hl (Nat.lt_irrefl _)⟩
        · rintro ⟨h1, _⟩
          rw [List.suffix_nil.1 h1]
      · rename_i h
        constructor
        · intro e; cases e
        · rintro ⟨h1, h2, _⟩
          rw [List.suffix_nil.1 h1] at h2
          exact absurd ((hb _).2 h2) h
    · split
      · rename_i h
        constructor
        · intro e; cases e
        · intro g; exact absurd h ((hb' _).2 (g [] (List.suffix_refl _)))
      · rename_i h
        constructor
        · intro _ q hq
          rw [List.suffix_nil.1 hq]
          exact (hb' _).1 h
        · intro _; rfl
  | cons c cs ih =>
    unfold pkgRoot
    constructor
    · intro r
      split
      · rename_i h
        constructor
        · intro e
          cases e
          exact ⟨List.suffix_refl _, (hb _).1 h, fun q hq hl => absurd hq.length_le (by omega)⟩
        · rintro ⟨h1, h2, h3⟩
          rcases List.suffix_cons_iff.1 h1 with rfl | h1
          · rfl
          · have := h1.length_le
            exact absurd h ((hb' _).2 (h3 (c :: cs) (List.suffix_refl _) (by simp only [List.length_cons]; omega)))
      · rename_i h
        rw [ih.1 r]
        constructor
        · rintro ⟨h1, h2, h3⟩
          refine ⟨h1.trans (List.suffix_cons _ _), h2, ?_⟩
          intro q hq hl
          rcases List.suffix_cons_iff.1 hq with rfl | hq
          · exact (hb' _).1 h
          · exact h3 q hq hl
        · rintro ⟨h1, h2, h3⟩
          rcases List.suffix_cons_iff.1 h1 with rfl | h1
          · exact absurd ((hb _).2 h2) h
          · exact ⟨h1, h2, fun q hq hl => h3 q (hq.trans (List.suffix_cons _ _)) hl⟩
    · split
      · rename_i h
        constructor
        · intro e; cases e
        · intro g; exact absurd h ((hb' _).2 (g _ (List.suffix_refl _)))
      · rename_i h
        rw [ih.2]
        constructor
        · intro g q hq
          rcases List.suffix_cons_iff.1 hq with rfl | hq
          · exact (hb' _).1 h
          · exact g q hq
        · intro g q hq
          exact g q (hq.trans (List.suffix_cons _ _))

/-- a case that meets the hypotheses: started in `/p/src`, with `/p/package.json` and `/node_modules` -/
example : pkgRoot (fun d => if d = ["p".toList] then ⟨false, true⟩ else if d = [] then ⟨true, false⟩ else ⟨false, false⟩)
    ["src".toList, "p".toList] = some ["p".toList] := by decide

end Startup
end Oro
