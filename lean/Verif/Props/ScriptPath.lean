import Verif.Model.ScriptPath
import Verif.Proofs.Mkdirp
import Verif.Proofs.Bins
/-
C45: the PATH of lifecycle scripts.
-/
set_option linter.unusedSectionVars false
namespace Oro
namespace ScriptPath
open Mkdirp (Path ancestors mem_ancestors)

theorem pushDirs_root {root : Path} : ∀ {pkg : Path}, root <:+ pkg →
    ∃ ds : List Path, pushDirs (some ⟨true, root⟩) (ancestors pkg) = ds.map binDir ∧ (∀ d, d ∈ ds ↔ root <:+ d ∧ d <:+ pkg) ∧
      ds.Pairwise fun a b => b.length < a.length := by
  intro pkg
  induction pkg with
  | nil =>
    intro h
    have := List.suffix_nil.1 h
    subst this
    refine ⟨[[]], by simp [ancestors, pushDirs, isRoot], ?_, by simp⟩
    intro d
    rw [List.mem_singleton]
    constructor
    · rintro rfl; exact ⟨List.suffix_refl _, List.suffix_refl _⟩
    · rintro ⟨_, h⟩; exact List.suffix_nil.1 h
  | cons c par ih =>
    intro h
    by_cases e : root = c :: par
    · subst e
      refine ⟨[c :: par], by simp [ancestors, pushDirs, isRoot], ?_, by simp⟩
      intro d
      rw [List.mem_singleton]
      constructor
      · rintro rfl; exact ⟨List.suffix_refl _, List.suffix_refl _⟩
      · rintro ⟨h1, h2⟩
        exact List.IsSuffix.eq_of_length_le h2 h1.length_le
    · have h2 : root <:+ par := by
        rcases List.suffix_cons_iff.1 h with h | h
        · exact absurd h e
        · exact h
      obtain ⟨ds, e1, e2, e3⟩ := ih h2
      refine ⟨(c :: par) :: ds, ?_, ?_, ?_⟩
      · have hn : isRoot (some ⟨true, root⟩) (c :: par) = false := by simp [isRoot, e]
        rw [ancestors, pushDirs, hn, if_neg (by simp), e1]; rfl
      · intro d
        rw [List.mem_cons, e2, List.suffix_cons_iff (a := c)]
        constructor
        · rintro (rfl | ⟨a, b⟩)
          · exact ⟨h, .inl rfl⟩
          · exact ⟨a, .inr b⟩
        · rintro ⟨a, rfl | b⟩
          · exact .inl rfl
          · exact .inr ⟨a, b⟩
      · refine List.pairwise_cons.2 ⟨?_, e3⟩
        intro d hd
        have := ((e2 d).1 hd).2.length_le
        simp only [List.length_cons]
        omega

/-- the folder for commands of a folder -/
def commandsOf (d : Path) : Path := ['.', 'b', 'i', 'n'] :: ['n', 'o', 'd', 'e', '_', 'm', 'o', 'd', 'u', 'l', 'e', 's'] :: d

/-- C45 (folders): for a package inside the project, exactly the `node_modules/.bin` of the folders from the package's up
to the project's are added, innermost first. -/
theorem C45_folders {root pkg : Path} (h : root <:+ pkg) :
    ∃ ds : List Path, added (some ⟨true, root⟩) pkg = ds.map commandsOf ∧ (∀ d, d ∈ ds ↔ root <:+ d ∧ d <:+ pkg) ∧
      ds.Pairwise fun a b => b.length < a.length :=
  pushDirs_root h

theorem text_noColon {p : Path} (h : ∀ c ∈ p, ':' ∉ c) : ':' ∉ text p := by
  induction p with
  | nil => decide
  | cons c l ih =>
    have h1 := h c List.mem_cons_self
    have h2 := ih fun x hx => h x (List.mem_cons_of_mem _ hx)
    unfold text
    split
    · simp [h1]
    · simp [h1, h2]

theorem split_join {l : List Str} (h : l ≠ []) (hc : ∀ s ∈ l, ':' ∉ s) : PSpec.splitChar ':' (List.intercalate [':'] l) = l := by
  have hone : ∀ (a t : Str), ':' ∉ a → PSpec.splitChar ':' (a ++ ':' :: t) = a :: PSpec.splitChar ':' t := by
    intro a t
    induction a with
    | nil => intro _; simp [PSpec.splitChar]
    | cons x a ih =>
      intro hx
      simp only [List.mem_cons, not_or] at hx
      rw [List.cons_append, PSpec.splitChar, if_neg (Ne.symm hx.1), ih hx.2]
  have hlast : ∀ a : Str, ':' ∉ a → PSpec.splitChar ':' a = [a] := by
    intro a
    induction a with
    | nil => intro _; rfl
    | cons x a ih =>
      intro hx
      simp only [List.mem_cons, not_or] at hx
      rw [PSpec.splitChar, if_neg (Ne.symm hx.1), ih hx.2]
  induction l with
  | nil => exact absurd rfl h
  | cons a l ih =>
    cases l with
    | nil => simpa using hlast a (hc a List.mem_cons_self)
    | cons b l =>
      have e : List.intercalate [':'] (a :: b :: l) = a ++ ':' :: List.intercalate [':'] (b :: l) := by
        simp [List.intercalate, List.intersperse]
      rw [e, hone a _ (hc a List.mem_cons_self), ih (by simp) fun s hs => hc s (List.mem_cons_of_mem _ hs)]

theorem existing_noColon (env : Env) : ∀ s ∈ existing env, ':' ∉ s := by
  intro s hs
  obtain ⟨e, _, he⟩ := List.mem_flatMap.1 hs
  exact Bins.splitChar_no_sep ':' e.2 s he

/-- C45 (environment): if no folder name on the way contains a colon, the script starts; every path variable consists of
the inherited entries followed by the added folders, and all other variables are as they were. -/
theorem C45_environment {root pkg : Path} (hin : root <:+ pkg) (hc : ∀ c ∈ pkg, ':' ∉ c) (env : Env) :
    ∃ (env' : Env) (ds : List Path), scriptEnv (some ⟨true, root⟩) pkg env = some env' ∧ (∀ d, d ∈ ds ↔ root <:+ d ∧ d <:+ pkg) ∧
      ds.Pairwise (fun a b => b.length < a.length) ∧ env'.map Prod.fst = env.map Prod.fst ∧
      (∀ e ∈ env', isPathVar e.1 → PSpec.splitChar ':' e.2 = existing env ++ ds.map fun d => text (commandsOf d)) ∧
      ∀ (i : Nat) (e : Str × Str), env[i]? = some e → isPathVar e.1 = false → env'[i]? = some e := by
  obtain ⟨ds, h1, h2, h3⟩ := C45_folders hin
  have hadd : (added (some ⟨true, root⟩) pkg).map text = ds.map fun d => text (commandsOf d) := by rw [h1, List.map_map]; rfl
  have hno : ∀ s ∈ existing env ++ ds.map (fun d => text (commandsOf d)), ':' ∉ s := by
    intro s hs
    rcases List.mem_append.1 hs with h | h
    · exact existing_noColon env s h
    · obtain ⟨d, hd, rfl⟩ := List.mem_map.1 h
      refine text_noColon ?_
      intro c hcm
      unfold commandsOf at hcm
      simp only [List.mem_cons] at hcm
      rcases hcm with rfl | rfl | hcm
      · decide
      · decide
      · exact hc c (((h2 d).1 hd).2.subset hcm)
  have hj : joinPaths (existing env ++ (added (some ⟨true, root⟩) pkg).map text) =
      some (List.intercalate [':'] (existing env ++ ds.map fun d => text (commandsOf d))) := by
    rw [hadd]
    unfold joinPaths
    rw [if_neg]
    simp only [List.any_eq_true, not_exists, not_and]
    intro s hs hx
    exact hno s hs (by simpa using hx)
  have hne : existing env ++ ds.map (fun d => text (commandsOf d)) ≠ [] := by
    have : pkg ∈ ds := (h2 pkg).2 ⟨hin, List.suffix_refl _⟩
    intro e
    have h := (List.append_eq_nil_iff.1 e).2
    rw [List.map_eq_nil_iff] at h
    rw [h] at this; cases this
  refine ⟨_, ds, by unfold scriptEnv; rw [hj]; rfl, h2, h3, ?_, ?_, ?_⟩
  · rw [List.map_map]
    refine List.map_congr_left ?_
    intro e _
    simp only [Function.comp_apply]
    split <;> rfl
  · intro e he hp
    obtain ⟨x, hx, rfl⟩ := List.mem_map.1 he
    by_cases hxp : isPathVar x.1 = true
    · rw [if_pos hxp]
      exact split_join hne hno
    · rw [if_neg hxp] at hp
      exact absurd hp hxp
  · intro i e he hp
    dsimp only
    rw [List.getElem?_map, he]
    simp [hp]

/-- with one path variable, the inherited entries are that variable's -/
theorem C45_inherited (pre post : Env) (n v : Str) (hn : isPathVar n = true) (h : ∀ e ∈ pre ++ post, isPathVar e.1 = false) :
    existing (pre ++ (n, v) :: post) = PSpec.splitChar ':' v := by
  have hf : ∀ l : Env, (∀ e ∈ l, isPathVar e.1 = false) → l.filter (fun e => isPathVar e.1) = [] := by
    intro l hl
    rw [List.filter_eq_nil_iff]
    intro e he
    simp [hl e he]
  unfold existing
  rw [List.filter_append, List.filter_cons, if_pos hn, hf pre fun e he => h e (List.mem_append_left _ he),
    hf post fun e he => h e (List.mem_append_right _ he)]
  simp

/-- C45 (inherited entries): those of all path variables, in the order of the variables, and of no other variable -/
theorem C45_inherited_all (env : Env) : existing [] = [] ∧
    (∀ n v, isPathVar n = true → existing ((n, v) :: env) = PSpec.splitChar ':' v ++ existing env) ∧
    (∀ n v, isPathVar n = false → existing ((n, v) :: env) = existing env) ∧
    ∀ n, isPathVar n = true ↔ Config.lower n = ['p', 'a', 't', 'h'] := by
  refine ⟨rfl, ?_, ?_, ?_⟩
  · intro n v h
    unfold existing
    rw [List.filter_cons, if_pos h, List.flatMap_cons]
  · intro n v h
    unfold existing
    rw [List.filter_cons, if_neg (by simp [h])]
  · intro n
    unfold isPathVar
    exact decide_eq_true_iff

/-! ### where C45 is false of the code -/

/-- C45 is false of the code if the project's path is not, letter by letter, a folder above the package's canonical one
(a relative path, or one through a symbolic link): then the folders above the project, up to the root of the disk, are
added as well. -/
theorem C45_above_fails {ws : Option Given} {pkg : Path} (h : ∀ d, d <:+ pkg → ws ≠ some ⟨true, d⟩) :
    added ws pkg = (ancestors pkg).map commandsOf := by
  unfold added
  have : ∀ l : List Path, (∀ d ∈ l, ws ≠ some ⟨true, d⟩) → pushDirs ws l = l.map commandsOf := by
    intro l
    induction l with
    | nil => intro _; rfl
    | cons d l ih =>
      intro hl
      have hn : isRoot ws d = false := by simp [isRoot, hl d List.mem_cons_self]
      rw [pushDirs, hn, if_neg (by simp), ih fun x hx => hl x (List.mem_cons_of_mem _ hx)]
      rfl
  exact this _ fun d hd => h d (mem_ancestors.1 hd)

/-- C45 is false of the code if there is no path variable to extend: the script gets none. -/
theorem C45_unset_fails {ws : Option Given} {pkg : Path} {env env' : Env} (h : ∀ e ∈ env, isPathVar e.1 = false)
    (hs : scriptEnv ws pkg env = some env') : env' = env := by
  unfold scriptEnv at hs
  obtain ⟨v, _, rfl⟩ := Option.map_eq_some_iff.1 hs
  conv_rhs => rw [← List.map_id env]
  refine List.map_congr_left ?_
  intro e he
  rw [if_neg (by rw [h e he]; simp)]; rfl

/-- C45: a colon in the name of a folder makes every script of the packages below it fail. -/
theorem C45_colon_fails {ws : Option Given} {pkg : Path} (env : Env) {c : Str} {par : Path} (hp : pkg = c :: par) (hc : ':' ∈ c) :
    scriptEnv ws pkg env = none := by
  subst hp
  have : text (binDir (c :: par)) ∈ (added ws (c :: par)).map text := by
    refine List.mem_map_of_mem ?_
    unfold added
    rw [ancestors, pushDirs]
    exact List.mem_cons_self
  have hx : ':' ∈ text (binDir (c :: par)) := by
    unfold binDir
    simp [text, hc]
  unfold scriptEnv joinPaths
  rw [if_pos]
  · rfl
  · rw [List.any_eq_true]
    exact ⟨_, List.mem_append_right _ this, by simpa using hx⟩

/-- the hypotheses are met: /p/node_modules/a in the project /p -/
example : scriptEnv (some ⟨true, [['p']]⟩) [['a'], ['n'], ['p']] [(['P', 'A', 'T', 'H'], ['/', 'x'])] =
    some [(['P', 'A', 'T', 'H'], List.intercalate [':'] [['/', 'x'], text (binDir [['a'], ['n'], ['p']]),
      text (binDir [['n'], ['p']]), text (binDir [['p']])])] := by decide

end ScriptPath
end Oro
