import Verif.Proofs.AtPath
/-
Property C37: locating a package by path.
-/

set_option linter.unusedSectionVars false

namespace Oro
variable {P S : Type}

/-- C37.  For every package of a folder tree (with names that can be folder names), looking up its own folder gives that
package – with or without the leading `node_modules`. -/
theorem C37_inverse (g : Graph Str P S) (hf : FolderTree g)
    (hv : ∀ i nd, i ≠ 0 → g.nodes[i]? = some nd → FolderName nd.name) (i : Nat) (π : List Str) (h0 : i ≠ 0)
    (hl : LocatedAt g i π) :
    nodeAtPath g (folder π) = some i ∧ nodeAtPath g (folder π).tail = some i := by
  have h1 : atStep g 0 true none (folder π) = i := by
    have := atStep_folder hf hv hl true []
    rw [List.append_nil] at this
    rw [this]; simp [atStep]
  have h2 : atStep g 0 true none (folder π).tail = i := by
    cases π with
    | nil => exact absurd (locatedAt_nil hl) h0
    | cons n π =>
      rw [← h1]
      show _ = atStep g 0 true none (nmWord :: _)
      rw [atStep, if_pos (.inl ⟨rfl, rfl⟩)]
      rfl
  exact ⟨by rw [nodeAtPath, h1, if_neg h0], by rw [nodeAtPath, h2, if_neg h0]⟩

/-- C37, proved part: every (regular) path that lies in a package and not in a package nested inside it belongs to that
package; paths below `node_modules` that lie in no package belong to none.
Missing: irregular paths, where the lookup may answer with a package that is somewhere else (`C37_fails`). -/
theorem C37_inside_partial (g : Graph Str P S) (hf : FolderTree g)
    (hv : ∀ i nd, i ≠ 0 → g.nodes[i]? = some nd → FolderName nd.name) (i : Nat) (π : List Str)
    (hl : LocatedAt g i π) (rest : List Str) (hr : Regular rest) (hd : NoDeeper g i rest)
    (hroot : i = 0 → rest.head? = some nmWord) :
    nodeAtPath g (folder π ++ rest) = if i = 0 then none else some i := by
  obtain ⟨nd, hi⟩ : ∃ nd, g.nodes[i]? = some nd := by
    cases hl with
    | root h => exact ⟨_, h⟩
    | inside h _ _ => exact ⟨_, h⟩
  have : atStep g 0 true none (folder π ++ rest) = i := by
    rw [atStep_folder hf hv hl]
    refine atStep_rest hi hr hd _ ?_
    intro hb
    split at hb
    · rename_i hπ
      subst hπ
      exact .inr (hroot (locatedAt_nil hl))
    · cases hb
  rw [nodeAtPath, this]

namespace ExAt
def nm : Str := nmWord
def node (n : Str) (p : Option Nat) (ch : IMap Str Nat) : Node Str Nat Nat := ⟨n, 0, [], p, ch, []⟩
def sb : Str := ['@', 's', '/', 'b']
/-- root ⊃ a ⊃ @s/b, root ⊃ c -/
def g : Graph Str Nat Nat :=
  ⟨[node [] none [(['a'], 1), (['c'], 3)], node ['a'] (some 0) [(sb, 2)], node sb (some 1) [], node ['c'] (some 0) []], []⟩

theorem loc1 : LocatedAt g 1 [['a']] := .inside (nd := node ['a'] (some 0) [(sb, 2)]) (π := []) (p := 0) rfl rfl (.root rfl)
theorem loc2 : LocatedAt g 2 [['a'], sb] := .inside (nd := node sb (some 1) []) (π := [['a']]) rfl rfl loc1

theorem tree : FolderTree g := by
  refine ⟨⟨_, rfl, rfl⟩, ?_, ?_, ?_, ?_⟩
  · intro i nd hi h0
    rcases i with _ | _ | _ | _ | i
    · exact absurd rfl h0
    · cases hi; exact ⟨0, _, rfl, rfl, rfl⟩
    · cases hi; exact ⟨1, _, rfl, rfl, rfl⟩
    · cases hi; exact ⟨0, _, rfl, rfl, rfl⟩
    · cases hi
  · intro p pn n c hp hc
    have hm := IMap.mem_of_get? hc
    rcases p with _ | _ | _ | _ | p
    · cases hp
      simp only [node, List.mem_cons, Prod.mk.injEq, List.not_mem_nil, or_false] at hm
      rcases hm with ⟨rfl, rfl⟩ | ⟨rfl, rfl⟩
      · exact ⟨_, rfl, rfl, rfl⟩
      · exact ⟨_, rfl, rfl, rfl⟩
    · cases hp
      simp only [node, List.mem_cons, Prod.mk.injEq, List.not_mem_nil, or_false] at hm
      obtain ⟨rfl, rfl⟩ := hm
      exact ⟨_, rfl, rfl, rfl⟩
    · cases hp; simp [node] at hm
    · cases hp; simp [node] at hm
    · cases hp
  · intro p pn hp
    rcases p with _ | _ | _ | _ | p <;> cases hp <;> (unfold IMap.WF; decide)
  · intro i nd hi
    have w0 : Within g 0 0 := .refl rfl
    have w1 : Within g 1 0 := .up rfl rfl w0
    rcases i with _ | _ | _ | _ | i
    · exact w0
    · exact w1
    · exact .up rfl rfl w1
    · exact .up rfl rfl w0
    · cases hi

theorem names : ∀ i nd, i ≠ 0 → g.nodes[i]? = some nd → FolderName nd.name := by
  intro i nd h0 hi
  rcases i with _ | _ | _ | _ | i
  · exact absurd rfl h0
  · cases hi; exact .inl (by decide)
  · cases hi; exact .inr ⟨['s'], ['b'], rfl, by decide⟩
  · cases hi; exact .inl (by decide)
  · cases hi
end ExAt

/-- a nested scoped package -/
example : FolderTree ExAt.g ∧ LocatedAt ExAt.g 2 [['a'], ExAt.sb] ∧
    folder [['a'], ExAt.sb] = [nmWord, ['a'], nmWord, ['@', 's'], ['b']] ∧
    nodeAtPath ExAt.g (folder [['a'], ExAt.sb]) = some 2 :=
  ⟨ExAt.tree, ExAt.loc2, by decide, (C37_inverse _ ExAt.tree ExAt.names 2 _ (by decide) ExAt.loc2).1⟩

/-- a file in a package; a command folder of a package -/
example : nodeAtPath ExAt.g [nmWord, ['a'], ['l', 'i', 'b'], ['x']] = some 1 ∧
    nodeAtPath ExAt.g [nmWord, ['a'], nmWord, ['.', 'b', 'i', 'n'], ['x']] = some 1 ∧
    nodeAtPath ExAt.g [nmWord, ['z'], ['x']] = none := by decide

/-- C37 is false of the code in general: below a scoped folder that is no package, the lookup goes on from the enclosing
package: `node_modules/@x/y/node_modules/c` is in no package, but is taken to be in `c`; and so is
`node_modules/node_modules/c`. -/
theorem C37_fails : FolderTree ExAt.g ∧ NoDeeper ExAt.g 0 [nmWord, ['@', 'x'], ['y'], nmWord, ['c']] ∧
    nodeAtPath ExAt.g (folder [] ++ [nmWord, ['@', 'x'], ['y'], nmWord, ['c']]) = some 3 ∧
    nodeAtPath ExAt.g [nmWord, nmWord, ['c']] = some 3 := by
  refine ⟨ExAt.tree, ?_, by decide, by decide⟩
  intro nd n c hn hc
  cases hn
  have hm := IMap.mem_of_get? hc
  simp only [ExAt.node, List.mem_cons, Prod.mk.injEq, List.not_mem_nil, or_false] at hm
  rcases hm with ⟨rfl, rfl⟩ | ⟨rfl, rfl⟩ <;> decide

end Oro
