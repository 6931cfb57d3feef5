import Verif.Props.Further
import Verif.Props.Hoisted
/-
C95: what pruning leaves is what a further installation needs.
-/

set_option linter.unusedSectionVars false

namespace Oro
namespace Hoisted
variable {P S V I : Type} [DecidableEq S] [DecidableEq V] [DecidableEq I]

/-- If the tree `g0` is installed and recorded, the changes to `g1` are ones that pruning notices, and `fs` is the disk after pruning
for `g1`, then a further installation of `g1` may begin, if the packages that are missing can be had. -/
theorem C95_pruned {env : Tar.Env} {build : Bytes → Option Bool} {pr : Bytes → Bytes} {pk : Pkgs P} {v : LockView P S V I} {g0 g1 : Graph Str P S}
    {o : XOpts} {fetch : P → Option Tar.Integrity × Option (List Tar.Ev)} {tar : P → Bytes} {fs : Tar.FS} (h0 : Installable pk g0)
    (h1 : Installable pk g1) (d : Disk V I) (recorded : IMap Str (LNode V I)) (hd : Installed pk g0 d.tree)
    (hm : d.metaFile = some recorded) (hn : Noticed pk v g0 g1 recorded) (hp : Tar.Proper fs)
    (hdisk : ∀ p, ¬ InBin p → seen pr o.root fs p = (prune v g1 d).tree p)
    (packages : ∀ i nd j, i ≠ 0 → g1.nodes[i]? = some nd → jobsFor o g1 fetch i = some j → seen pr o.root fs (targetDir g1 i) = none →
      Obtainable env j (tar nd.pkg) fs)
    (packed : ∀ (i : Nat) (nd : Node Str P S), i ≠ 0 → g1.nodes[i]? = some nd → Packed pr (pk.content nd.pkg) (env.untar (tar nd.pkg)).1)
    (built : ∀ (i : Nat) (nd : Node Str P S), i ≠ 0 → g1.nodes[i]? = some nd →
      Built build (env.untar (tar nd.pkg)).1 (pk.scripts nd.pkg || !(pk.bins nd.pkg).isEmpty))
    (sight : ∀ c c', env.xxh c = env.xxh c' → pr c = pr c') (reading : ∀ c c', env.xxh c = env.xxh c' → build c = build c') :
    Further env build pr pk g1 o fetch tar fs := by
  have hP : Prev pk v g0 g1 recorded d.tree := ⟨h0, h1, hd, hn⟩
  have hpr := prune_eq (v := v) (g := g1) (d := d) (by rw [hP.root]; simp) hP.store hm
  obtain ⟨l, y, hl, e1, e2, e3⟩ := hP.install rfl hm
  have hroot : seen pr o.root fs [] = some .dir := by
    rw [hdisk [] not_inBin_nil, hpr]
    exact hP.base.root
  refine ⟨h1, hp, ?_, fun p hb e he => ?_, fun i nd hi0 hi hs r e hb hc => ?_, packages, packed, built, sight, reading⟩
  · unfold seen at hroot
    split at hroot
    · cases hroot
    · split at hroot
      · assumption
      · cases hroot
  · rw [hdisk p hb, hpr] at he
    exact (e3 p hb e).1 ((e2.tree p e).2 (.inl he))
  · obtain ⟨n, ρ, hloc, hin⟩ := located_cons h1 hi0 hi
    have htf := target_folder h1.tree (ord_of h1) hi0 hloc
    have hdir : targetDir g1 i = nameSegs n ++ folder ρ := by
      rw [folder_cons] at htf; simpa using htf
    have hne : ∀ x, nameSegs n ++ x ≠ [] := fun x hx => segs_ne_nil hin.1 (List.append_eq_nil_iff.1 hx).1
    rw [hdisk _ (not_inBin_way (located_inst h1 hloc) (by rw [htf])), hpr] at hs
    have hcold : Cold v g1 recorded n := by
      by_contra hc
      refine hs ?_
      rw [hdir]
      exact hP.base.clean n ⟨hin, hc⟩ _
    rw [hdisk _ hb, hpr]
    show prunedTree v g1 recorded d.tree _ = _
    unfold prunedTree
    rw [if_pos]
    · refine (hd _ hb e).2 (expected_same h0 (ρ := ρ) (hn n hin.1 hcold).symm (.inl ⟨i, nd, r, hi, hloc, ?_, hc⟩))
      rw [← htf]
      rfl
    · rw [hdir, List.append_assoc, survives_iff h1.tree hin (y := folder ρ ++ r) (hne _) List.prefix_rfl]
      exact hcold

end Hoisted
end Oro
