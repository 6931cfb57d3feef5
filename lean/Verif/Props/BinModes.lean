import Verif.Spec.BinModes
import Verif.Props.LinkBins
import Verif.Proofs.FileLife
import Verif.Props.Modes
/-
C99: commands can be executed (hoisted linker).
-/

set_option linter.unusedSectionVars false

namespace Oro
namespace Hoisted
variable {P S V I : Type} {pk : Pkgs P} {cap : Nat} {root : Loc} {g : Graph Str P S} {order : List Nat} {t : Tree} {fs : Tar.FS}

/-- linking is as before -/
theorem BReach.links {x : BinRun} (h : BReach pk cap root g order t fs x) : LReach pk cap g order t x.links := by
  induction h with
  | init => exact .init
  | @step x y ev _ hs ih =>
    unfold bstep at hs
    obtain ⟨r, h1, h2⟩ := Option.map_eq_some_iff.1 hs
    obtain ⟨z, rfl, rfl⟩ := Option.map_eq_some_iff.1 h2
    exact .step ev ih h1

/-- and every way to link is one of these -/
theorem LReach.files {x : LRun} (h : LReach pk cap g order t x) : ∃ f, BReach pk cap root g order t fs ⟨x, f⟩ := by
  induction h with
  | init => exact ⟨_, .init⟩
  | @step x y ev _ hs ih =>
    obtain ⟨f, hf⟩ := ih
    exact ⟨binFiles root g ⟨x, f⟩ ev, .step ev hf (by unfold bstep; rw [hs]; rfl)⟩

/-- what a step does to the files -/
theorem binFiles_cases (x : BinRun) (ev : XEvent) :
    (∃ new, binFiles root g x ev = withDirs x.fs new) ∨ binFiles root g x ev = x.fs ∨
    (∃ k i b rest, ev = .work k ∧ x.links.tasks[k]? = some ⟨i, b :: rest, .link⟩ ∧
      binFiles root g x ev = setExec x.fs (root ++ nmWord :: (targetDir g i ++ b.2))) ∨
    ∃ k i b rest, ev = .work k ∧ x.links.tasks[k]? = some ⟨i, b :: rest, .remove⟩ ∧
      binFiles root g x ev = without root (fun q => (binDir (targetDir g i) ++ [b.1]).isPrefixOf q) x.fs := by
  unfold binFiles
  cases ev with
  | start => exact .inr (.inl rfl)
  | work k =>
    dsimp only
    split
    · rename_i i b rest h
      exact .inr (.inr (.inl ⟨k, i, b, rest, rfl, h, rfl⟩))
    · rename_i i b rest h
      exact .inr (.inr (.inr ⟨k, i, b, rest, rfl, h, rfl⟩))
    · exact .inl ⟨_, rfl⟩
    · exact .inl ⟨_, rfl⟩
    · exact .inr (.inl rfl)

theorem without_bits {gone : Loc → Bool} {p : Loc} {m : Nat} (h : Tar.Bits (without root gone fs) p m) : Tar.Bits fs p m := by
  obtain ⟨i, h1, h2⟩ := h
  refine ⟨i, ?_, h2⟩
  simp only [without] at h1
  split at h1
  · cases h1
  · exact h1

theorem setExec_files {p : Loc} : (setExec fs p).files = fs.files := by unfold setExec; split <;> rfl

theorem setExec_bits {p q : Loc} {m : Nat} (h : Tar.Bits (setExec fs p) q m) : m = 0o755 ∨ Tar.Bits fs q m := by
  obtain ⟨i, h1, h2⟩ := h
  rw [setExec_files] at h1
  unfold setExec at h2
  split at h2
  · rename_i j hj
    dsimp only at h2
    by_cases he : i = j
    · subst he; rw [Tar.upd_self] at h2; exact .inl h2.symm
    · rw [Tar.upd_ne _ _ he] at h2; exact .inr ⟨i, h1, h2⟩
  · exact .inr ⟨i, h1, h2⟩

theorem setExec_at {p : Loc} {m : Nat} (h : Tar.Bits (setExec fs p) p m) : m = 0o755 := by
  obtain ⟨i, h1, h2⟩ := h
  rw [setExec_files] at h1
  unfold setExec at h2
  rw [h1] at h2
  dsimp only at h2
  rw [Tar.upd_self] at h2; exact h2.symm

theorem writeAt_links {t' : Tree} {d p q : Loc} (h : writeAt t d .dir = some t') (hl : t' p = some (.link q)) : t p = some (.link q) := by
  unfold writeAt at h
  split at h
  · cases h
  · split at h
    · cases h
    · cases h
      dsimp only at hl
      split at hl
      · cases hl
      · unfold dirsAbove at hl
        split at hl
        · cases hl
        · exact hl

/-- the links after a step -/
theorem lstep_links {x y : LRun} {ev : XEvent} (h : lstep pk cap g x ev = some (some y)) {p q : Loc} (hl : y.tree p = some (.link q)) :
    x.tree p = some (.link q) ∨ ∃ k i b rest, ev = .work k ∧ x.tasks[k]? = some ⟨i, b :: rest, .link⟩ ∧ q = targetDir g i ++ b.2 := by
  unfold lstep at h
  cases ev with
  | start =>
    left
    dsimp only at h
    split at h
    · split at h
      · cases h
      · split at h
        · cases h; exact hl
        · split at h <;> · cases h; exact hl
    · cases h
  | work k =>
    dsimp only at h
    split at h
    · cases h
    · cases h; exact .inl hl
    · rename_i i b rest ph hk
      simp only [Option.some.injEq] at h
      obtain ⟨r, h1, rfl⟩ := Option.map_eq_some_iff.1 h
      dsimp only at hl
      unfold lcmd at h1
      cases ph <;> try dsimp only at h1
      case start => cases h1; exact .inl hl
      case check => cases h1; exact .inl hl
      case parent => cases h1; exact .inl hl
      case create =>
        split at h1
        · cases h1
          dsimp only at hl
          split at hl
          · cases hl
          · exact .inl hl
        · cases h1
      case createAll =>
        obtain ⟨t', h2, rfl⟩ := Option.map_eq_some_iff.1 h1
        dsimp only at hl
        left
        exact writeAt_links h2 hl
      case insert l => cases l <;> · cases h1; exact .inl hl
      case look => cases h1; exact .inl hl
      case remove =>
        split at h1
        · cases h1
        · cases h1
          dsimp only at hl
          split at hl
          · cases hl
          · exact .inl hl
      case link =>
        split at h1
        · cases h1
          dsimp only at hl
          split at hl
          · cases hl
            exact .inr ⟨k, i, b, rest, rfl, hk, rfl⟩
          · exact .inl hl
        · cases h1

/-- C99: whatever number of packages at a time, and in whatever order their steps come: at every moment, every command's link that leads
to a file leads to one that everybody can read and execute, if this was so before (as it is when there are no links). -/
theorem C99_executable {x : BinRun} (h : BReach pk cap root g order t fs x) (h0 : AllExecutable root t fs) : AllExecutable root x.links.tree x.fs := by
  induction h with
  | init =>
    intro p q hl m hb
    refine h0 p q ?_ m (without_bits hb)
    change (if cleared p then none else t p) = _ at hl
    split at hl
    · cases hl
    · exact hl
  | @step x y ev _ hs ih =>
    unfold bstep at hs
    obtain ⟨r, h1, h2⟩ := Option.map_eq_some_iff.1 hs
    obtain ⟨z, rfl, rfl⟩ := Option.map_eq_some_iff.1 h2
    intro p q hl m hb
    dsimp only at hl hb
    rcases lstep_links h1 hl with ho | ⟨k, i, b, rest, rfl, hk, rfl⟩
    · rcases binFiles_cases (root := root) (g := g) x ev with ⟨_, he⟩ | he | ⟨_, _, _, _, _, _, he⟩ | ⟨_, _, _, _, _, _, he⟩
      · rw [he] at hb; exact ih p q ho m hb
      · rw [he] at hb; exact ih p q ho m hb
      · rw [he] at hb
        rcases setExec_bits hb with hb | hb
        · exact hb
        · exact ih p q ho m hb
      · rw [he] at hb; exact ih p q ho m (without_bits hb)
    · unfold binFiles at hb
      dsimp only at hb
      rw [hk] at hb
      exact setExec_at hb

theorem without_files [DecidableEq S] (hg : Installable pk g) {i : Nat} {nd : Node Str P S} (h0 : i ≠ 0) (hi : g.nodes[i]? = some nd) {b : Str} {p : Loc}
    (hp : ∀ r, p = root ++ nmWord :: r → ¬ InBin r) :
    (without root (fun q => (binDir (targetDir g i) ++ [b]).isPrefixOf q) fs).files p = fs.files p := by
  simp only [without]
  rw [if_neg]
  unfold under
  split
  · rename_i r hr
    rw [below_eq] at hr
    intro hx
    obtain ⟨z, rfl⟩ := List.isPrefixOf_iff_prefix.1 hx
    refine hp (binDir (targetDir g i) ++ [b] ++ z) (by rw [hr]; simp) ?_
    rw [List.append_assoc]
    exact bin_in hg h0 hi _
  · simp

/-- C99: linking commands changes nothing in the files but the permission bits of commands' files, which become 0o755; contents, the
cache, and the names of files outside the folders `.bin` stay. -/
theorem C99_only [DecidableEq S] (hg : Installable pk g) (ht : Installed pk g t) {x : BinRun} (h : BReach pk cap root g order t fs x) :
    (∀ i, x.fs.mode i = fs.mode i ∨ (x.fs.mode i = 0o755 ∧ ∃ p, IsTarget pk root g p ∧ fs.files p = some i)) ∧
    (∀ p, (∀ r, p = root ++ nmWord :: r → ¬ InBin r) → x.fs.files p = fs.files p) ∧ (∀ p i, x.fs.files p = some i → fs.files p = some i) ∧
    x.fs.content = fs.content ∧ x.fs.store = fs.store ∧ x.fs.index = fs.index := by
  induction h with
  | init =>
    refine ⟨fun _ => .inl rfl, fun p hp => ?_, fun p i hx => ?_, rfl, rfl, rfl⟩
    · show (if _ then _ else _) = _
      rw [if_neg]
      unfold under
      split
      · rename_i r hr
        rw [below_eq] at hr
        exact fun hx => hp r (by rw [hr]; simp) (cleared_inBin hx)
      · simp
    · change (if _ then _ else _) = _ at hx
      split at hx
      · cases hx
      · exact hx
  | @step x y ev hr hs ih =>
    obtain ⟨i1, i2, i3, i4, i5, i6⟩ := ih
    have hinv := linv hg ht hr.links
    unfold bstep at hs
    obtain ⟨r, h1, h2⟩ := Option.map_eq_some_iff.1 hs
    obtain ⟨z, rfl, rfl⟩ := Option.map_eq_some_iff.1 h2
    dsimp only
    rcases binFiles_cases (root := root) (g := g) x ev with ⟨_, he⟩ | he | ⟨k, i, b, rest, _, hk, he⟩ | ⟨k, i, b, rest, _, hk, he⟩
    · rw [he]; exact ⟨i1, i2, i3, i4, i5, i6⟩
    · rw [he]; exact ⟨i1, i2, i3, i4, i5, i6⟩
    · obtain ⟨j0, _, nd, hj, hc⟩ := hinv.task _ (List.mem_of_getElem? hk)
      rw [he]
      refine ⟨fun n => ?_, fun p hp => by rw [setExec_files]; exact i2 p hp, fun p n hx => by rw [setExec_files] at hx; exact i3 p n hx, ?_, ?_, ?_⟩
      · unfold setExec
        split
        · rename_i m hm
          dsimp only
          by_cases hn : n = m
          · subst hn
            rw [Tar.upd_self]
            exact .inr ⟨rfl, _, ⟨i, nd, b, j0, hj, hc b (by simp), rfl⟩, i3 _ _ hm⟩
          · rw [Tar.upd_ne _ _ hn]; exact i1 n
        · exact i1 n
      all_goals
        unfold setExec
        split
        · assumption
        · assumption
    · obtain ⟨j0, _, nd, hj, hc⟩ := hinv.task _ (List.mem_of_getElem? hk)
      rw [he]
      refine ⟨i1, fun p hp => (without_files hg j0 hj hp).trans (i2 p hp), fun p n hx => i3 p n ?_, i4, i5, i6⟩
      simp only [without] at hx
      split at hx
      · cases hx
      · exact hx

/-- C99: so where the files of commands have one name each and are not the cache's (as when they are copied or cloned), all other files,
and those of the cache, keep their permission bits. -/
theorem C99_lone_partial [DecidableEq S] (hg : Installable pk g) (ht : Installed pk g t) {x : BinRun} (h : BReach pk cap root g order t fs x)
    (hl : ∀ p, IsTarget pk root g p → Lone fs p) :
    (∀ p m, ¬ IsTarget pk root g p → (∀ r, p = root ++ nmWord :: r → ¬ InBin r) → (Tar.Bits x.fs p m ↔ Tar.Bits fs p m)) ∧
    ∀ k i, fs.store k = some i → x.fs.mode i = fs.mode i := by
  obtain ⟨i1, i2, i3, _⟩ := C99_only hg ht h
  have hm : ∀ p, ¬ IsTarget pk root g p → ∀ i, fs.files p = some i → x.fs.mode i = fs.mode i := by
    intro p hp i hi
    rcases i1 i with h1 | ⟨_, q, hq, hqi⟩
    · exact h1
    · have := (hl q hq i hqi).1 p hi
      subst this
      exact absurd hq hp
  refine ⟨fun p m hp hb => ⟨fun ⟨i, h1, h2⟩ => ?_, fun ⟨i, h1, h2⟩ => ?_⟩, fun k i hk => ?_⟩
  · have h3 := i3 p i h1
    exact ⟨i, h3, by rw [← hm p hp i h3]; exact h2⟩
  · exact ⟨i, by rw [i2 p hb]; exact h1, by rw [hm p hp i h1]; exact h2⟩
  · rcases i1 i with h1 | ⟨_, q, hq, hqi⟩
    · exact h1
    · exact absurd hk ((hl q hq i hqi).2 k)

/-- what a command's work goes on with -/
theorem lcmd_next {target : Loc} {b : Str × Loc} {t : Tree} {cache : List Loc} {ph : LPhase} {r} (h : lcmd target b t cache ph = some r) :
    r.2.2 = none ∨ ph ≠ .start ∨ t (target ++ b.2) ≠ none := by
  cases ph with
  | start =>
    unfold lcmd at h
    cases h
    dsimp only
    split
    · exact .inl rfl
    · rename_i hn; exact .inr (.inr hn)
  | _ => exact .inr (.inl (by simp))

/-- the files of commands that are being linked, or are, were there -/
structure Found (g : Graph Str P S) (t : Tree) (x : LRun) : Prop where
  task : ∀ k ∈ x.tasks, ∀ c rest, k.todo = c :: rest → k.phase ≠ .start → t (targetDir g k.pkg ++ c.2) ≠ none ∨ InBin (targetDir g k.pkg ++ c.2)
  link : ∀ p q, x.tree p = some (.link q) → t p = some (.link q) ∨ t q ≠ none ∨ InBin q

theorem found [DecidableEq S] (hg : Installable pk g) (ht : Installed pk g t) {x : LRun} (h : LReach pk cap g order t x) : Found g t x := by
  induction h with
  | init =>
    refine ⟨fun k hk => (by cases hk), fun p q hl => .inl ?_⟩
    change (if cleared p then none else t p) = _ at hl
    split at hl
    · cases hl
    · exact hl
  | @step x y ev hr hs ih =>
    have hinv := linv hg ht hr
    refine ⟨?_, fun p q hl => ?_⟩
    · unfold lstep at hs
      cases ev with
      | start =>
        dsimp only at hs
        split at hs
        · split at hs
          · cases hs
          · split at hs
            · cases hs; exact ih.task
            · split at hs
              · cases hs; exact ih.task
              · cases hs
                intro k hk c rest hc hph
                rcases List.mem_append.1 hk with hk | hk
                · exact ih.task k hk c rest hc hph
                · rw [List.mem_singleton] at hk
                  subst hk
                  exact absurd rfl hph
        · cases hs
      | work n =>
        dsimp only at hs
        split at hs
        · cases hs
        · cases hs
          intro k hk
          exact ih.task k (List.eraseIdx_subset hk)
        · rename_i i b rest ph hn
          simp only [Option.some.injEq] at hs
          obtain ⟨r, h1, rfl⟩ := Option.map_eq_some_iff.1 hs
          intro k hk c rest' hc hph
          dsimp only at hk
          rcases List.mem_or_eq_of_mem_set hk with hk | hk
          · exact ih.task k hk c rest' hc hph
          · cases h2 : r.2.2 with
            | none =>
              simp only [h2] at hk
              subst hk
              exact absurd rfl hph
            | some ph' =>
              simp only [h2] at hk
              subst hk
              simp only [List.cons.injEq] at hc
              obtain ⟨rfl, rfl⟩ := hc
              dsimp only
              rcases lcmd_next h1 with h3 | h3 | h3
              · rw [h2] at h3; cases h3
              · exact ih.task _ (List.mem_of_getElem? hn) b rest rfl h3
              · by_cases hb : InBin (targetDir g i ++ b.2)
                · exact .inr hb
                · rw [hinv.keeps _ hb] at h3; exact .inl h3
    · rcases lstep_links hs hl with ho | ⟨k, i, b, rest, rfl, hk, rfl⟩
      · exact ih.link p q ho
      · exact .inr (ih.task _ (List.mem_of_getElem? hk) b rest rfl (by simp))

/-- C99: when linking is over after a first install, every command that an installed package declares (and whose file exists) can be
executed: its link leads to a file that is there and that everybody can read and execute (or to a folder, if the package says so). -/
theorem C99_commands {v : LockView P S V I} [DecidableEq S] [DecidableEq V] [DecidableEq I] {pr : Bytes → Bytes} (hg : Installable pk g) (d : Disk V I) (hd : Fresh d) (r : Disk V I × Ext) (hr : install pk v g d = some r)
    (ho : order.Perm r.2.pending) (hsee : ∀ p, ¬ InBin p → seen pr root fs p = r.1.tree p) (hplain : ∀ (i : Nat) (nd : Node Str P S), g.nodes[i]? = some nd → ∀ p q, pk.content nd.pkg p ≠ some (.link q))
    (hnest : ∀ (i : Nat) (nd : Node Str P S), g.nodes[i]? = some nd → ∀ b ∈ pk.bins nd.pkg, nmWord ∉ b.2) {x : BinRun}
    (h : BReach pk cap root g order r.1.tree fs x) (hdone : x.links.done = true)
    (i : Nat) (nd : Node Str P S) (σ : List Str) (n b : Str) (f : Loc) (hi : g.nodes[i]? = some nd) (hloc : LocatedAt g i (σ ++ [n]))
    (hb : (b, f) ∈ pk.bins nd.pkg) (hc : pk.content nd.pkg f ≠ none) :
    ∃ p q, nmWord :: p = folder σ ++ [nmWord, binName, b] ∧ x.links.tree p = some (.link q) ∧
      (Tar.Bits x.fs (root ++ nmWord :: q) 0o755 ∨ x.links.tree q = some .dir) := by
  obtain ⟨hin, hA⟩ := C35_concurrent_partial pk v cap g hg d hd r hr order ho x.links h.links
  obtain ⟨j, nd', n', f', p, q, hj, hl, hb', hp, hq, hlink⟩ := hA hdone i nd σ n b f hi hloc hb (hnest i nd hi _ hb) hc
  obtain ⟨l, y, hl', e1, e2, e3⟩ := fresh_install (v := v) hg hd
  rw [e1] at hr
  cases hr
  have h0 : ∀ p q, y.tree p ≠ some (.link q) := fun p q hx => by
    rcases (e2.tree _ _).1 hx with hT | ⟨i, _, _, ⟨nd', π, r, hi, _, _, hc⟩ | ⟨h, _⟩⟩
    · unfold wiped at hT
      split at hT <;> cases hT
    · exact hplain i nd' hi _ _ hc
    · cases h
  refine ⟨p, q, hp, hlink, ?_⟩
  have hjn : j ≠ 0 := by
    rintro rfl
    have h1 := ((locatedAt_iff hg.tree (ord_of hg)).1 hl).2
    have h2 := ((locatedAt_iff hg.tree (ord_of hg)).1 (.root hj)).2
    rw [h1] at h2
    simp at h2
  have hq' : q = targetDir g j ++ f' := by
    rw [← target_folder hg.tree (ord_of hg) hjn hl] at hq
    simpa using hq
  have hnb : ¬ InBin q := by
    rw [hq']
    exact command_not_inBin hg hjn hl (hnest j nd' hj _ hb')
  have hkeep := (linv hg e3 h.links).keeps q hnb
  have hthere : y.tree q ≠ none := by
    rcases (found hg e3 h.links).link p q hlink with h1 | h1 | h1
    · exact absurd h1 (h0 p q)
    · exact h1
    · exact absurd h1 hnb
  have hfile : x.fs.files (root ++ nmWord :: q) = fs.files (root ++ nmWord :: q) :=
    (C99_only hg e3 h).2.1 _ (fun r hr => by
      have := List.append_cancel_left hr
      simp only [List.cons.injEq, true_and] at this
      rw [← this]; exact hnb)
  have hs := hsee q hnb
  change seen pr root fs q = y.tree q at hs
  unfold seen at hs
  cases hf : fs.files (root ++ nmWord :: q) with
  | some k =>
    left
    have hbits : Tar.Bits x.fs (root ++ nmWord :: q) (x.fs.mode k) := ⟨k, by rw [hfile, hf], rfl⟩
    have := C99_executable h (fun p q hx => absurd hx (h0 p q)) p q hlink _ hbits
    rw [this] at hbits
    exact hbits
  | none =>
    right
    rw [hf] at hs
    dsimp only at hs
    rw [hkeep, ← hs]
    split
    · rfl
    · rename_i hd'
      rw [if_neg hd'] at hs
      exact absurd hs.symm hthere

/-- two packages, installed with hard links; the second one has a file `y` with the contents of the first one's command `x` -/
def ExM.linked : Tar.FS := (Tar.extractToDir ExM.env ExT.d3 true .hardlink (some (ExT.n 2)) none ExM.both).2

/-- C99: with hard links, linking a command of one package changes the permission bits of another package's file, and of the cache's: here
a file that is no command becomes executable. -/
theorem C99_shared_fails : Tar.Reach ExM.env ExM.linked ∧ Tar.Bits ExM.linked (ExT.d3 ++ ["y".toList]) 0o664 ∧
    Tar.Bits (setExec ExM.linked (ExT.d2 ++ [ExM.x])) (ExT.d3 ++ ["y".toList]) 0o755 ∧
    ((ExM.linked.store (ExM.env.xxh [10])).map ExM.linked.mode = some 0o664) ∧
    (ExM.linked.store (ExM.env.xxh [10])).map (setExec ExM.linked (ExT.d2 ++ [ExM.x])).mode = some 0o755 := by
  refine ⟨.extract _ _ _ _ _ _ (.extract _ _ _ _ _ _ (.extract _ _ _ _ _ _ (.init _ ExT.empty_sane (fun _ => rfl)))), ⟨_, rfl, ?_⟩, ⟨_, rfl, ?_⟩, ?_, ?_⟩ <;>
    decide +kernel

end Hoisted
end Oro
