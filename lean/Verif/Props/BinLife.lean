import Verif.Props.BinModes
import Verif.Props.FileLife
/-
C96, C99: linking commands in the life of a project (hoisted linker).
-/

set_option linter.unusedSectionVars false

namespace Oro
namespace Hoisted
variable {P S V I : Type} {pk : Pkgs P} {cap : Nat} {root : Loc} {g : Graph Str P S} {order : List Nat} {t : Tree} {fs : Tar.FS} {pr : Bytes → Bytes}

theorem below_mk (p : Loc) : below (root ++ [nmWord]) (root ++ nmWord :: p) = some p := by rw [below_eq]; simp

theorem under_mk (gone : Loc → Bool) (p : Loc) : under root gone (root ++ nmWord :: p) = gone p := by
  unfold under; rw [below_mk]

theorem seen_without (gone : Loc → Bool) (p : Loc) : seen pr root (without root gone fs) p = if gone p then none else seen pr root fs p := by
  unfold seen
  simp only [without, under_mk]
  cases gone p <;> simp

theorem sight_without (h : Sight pr root t fs) (gone : Loc → Bool) : Sight pr root (fun q => if gone q then none else t q) (without root gone fs) where
  files p := by
    rw [seen_without, h.files p]
    cases gone p <;> simp
  links p q hx := by
    split at hx
    · cases hx
    · exact h.links p q hx

theorem under_up {gone : Loc → Bool} (hu : ∀ p r, gone p = true → gone (p ++ r) = true) {q p : Loc} (h : under root gone q = true) (hq : q <+: p) :
    under root gone p = true := by
  unfold under at h
  split at h
  · rename_i r hr
    rw [below_eq] at hr
    obtain ⟨w, rfl⟩ := hq
    subst hr
    rw [show root ++ [nmWord] ++ r ++ w = root ++ nmWord :: (r ++ w) by simp, under_mk]
    exact hu r w h
  · cases h

theorem proper_without {gone : Loc → Bool} (hu : ∀ p r, gone p = true → gone (p ++ r) = true) (hp : Tar.Proper fs) : Tar.Proper (without root gone fs) := by
  have keep : ∀ {q p}, under root gone p = false → q <+: p → under root gone q = false := by
    intro q p h hq
    by_contra hc
    rw [Bool.not_eq_false] at hc
    rw [under_up hu hc hq] at h; cases h
  have file : ∀ {p}, (without root gone fs).files p ≠ none → under root gone p = false ∧ fs.files p ≠ none := by
    intro p h
    simp only [without] at h
    split at h
    · exact absurd rfl h
    · rename_i hn; exact ⟨by simpa using hn, h⟩
  refine ⟨fun d hd q hq => ?_, fun p h => ?_, fun p h => ?_⟩
  · simp only [without, Bool.and_eq_true, Bool.not_eq_true'] at hd ⊢
    exact ⟨keep hd.1 hq, hp.closed d hd.2 q hq⟩
  · obtain ⟨h1, h2⟩ := file h
    simp only [without, Bool.and_eq_true, Bool.not_eq_true']
    exact ⟨keep h1 (List.dropLast_prefix _), hp.housed p h2⟩
  · obtain ⟨h1, h2⟩ := file h
    simp [without, hp.apart p h2]

theorem sight_seen {pr : Bytes → Bytes} {root : Loc} {fs : Tar.FS} : Sight pr root (seen pr root fs) fs where
  files p := by
    cases h : seen pr root fs p with
    | none => rfl
    | some e =>
      cases e with
      | file c => rfl
      | dir => rfl
      | link q =>
        unfold seen at h
        split at h
        · cases h
        · split at h <;> cases h
  links p q h := by
    unfold seen at h
    split at h
    · cases h
    · split at h <;> cases h

theorem sight_same {fs' : Tar.FS} (h : Sight pr root t fs) (h1 : fs'.files = fs.files) (h2 : fs'.dirs = fs.dirs) (h3 : fs'.content = fs.content) :
    Sight pr root t fs' where
  files p := by
    rw [← h.files p]
    unfold seen
    rw [h1, h2, h3]
  links := h.links

theorem setExec_dirs {p : Loc} : (setExec fs p).dirs = fs.dirs := by unfold setExec; split <;> rfl
theorem setExec_content {p : Loc} : (setExec fs p).content = fs.content := by unfold setExec; split <;> rfl

theorem proper_same {fs' : Tar.FS} (h : Tar.Proper fs) (h1 : fs'.files = fs.files) (h2 : fs'.dirs = fs.dirs) : Tar.Proper fs' := by
  refine ⟨?_, ?_, ?_⟩ <;> rw [h2]
  · exact h.closed
  · rw [h1]; exact h.housed
  · rw [h1]; exact h.apart

/-- what is seen, from the tree -/
theorem Sight.none_ (h : Sight pr root t fs) {p : Loc} (hp : t p = none) : fs.files (root ++ nmWord :: p) = none ∧ fs.dirs (root ++ nmWord :: p) = false := by
  have := h.files p
  rw [hp] at this
  unfold seen at this
  split at this
  · cases this
  · rename_i hn
    refine ⟨hn, ?_⟩
    split at this
    · cases this
    · rename_i hd; simpa using hd

theorem Sight.dir_ (h : Sight pr root t fs) {p : Loc} (hp : t p = some .dir) : fs.files (root ++ nmWord :: p) = none ∧ fs.dirs (root ++ nmWord :: p) = true := by
  have := h.files p
  rw [hp] at this
  unfold seen at this
  split at this
  · cases this
  · rename_i hn
    refine ⟨hn, ?_⟩
    split at this
    · assumption
    · cases this

theorem sight_dirs (h : Sight pr root t fs) {new : Loc → Bool} {new' : Loc → Bool} (hn : ∀ q, new (root ++ nmWord :: q) = new' q)
    (hq : ∀ q, new' q = true → t q = none ∨ t q = some .dir) : Sight pr root (fun q => if new' q then some .dir else t q) (withDirs fs new) where
  files p := by
    cases hx : new' p with
    | true =>
      have hf : fs.files (root ++ nmWord :: p) = none := (hq p hx).elim (fun e => (h.none_ e).1) fun e => (h.dir_ e).1
      unfold seen
      simp [withDirs, hn, hx, hf]
    | false =>
      simp only [Bool.false_eq_true, if_false]
      rw [← h.files p]
      unfold seen
      simp [withDirs, hn, hx]
  links p q hx := by
    split at hx
    · cases hx
    · exact h.links p q hx

theorem proper_dirs (h : Tar.Proper fs) {new : Loc → Bool} (h1 : ∀ d, new d = true → ∀ q, q <+: d → new q = true ∨ fs.dirs q = true)
    (h2 : ∀ p, new p = true → fs.files p = none) : Tar.Proper (withDirs fs new) := by
  refine ⟨fun d hd q hq => ?_, fun p hx => ?_, fun p hx => ?_⟩
  · simp only [withDirs, Bool.or_eq_true] at hd ⊢
    rcases hd with hd | hd
    · exact h1 d hd q hq
    · exact .inr (h.closed d hd q hq)
  · simp only [withDirs, Bool.or_eq_true]
    exact .inr (h.housed p hx)
  · have hx : fs.files p ≠ none := hx
    simp only [withDirs, Bool.or_eq_false_iff]
    refine ⟨?_, h.apart p hx⟩
    by_contra hc
    rw [Bool.not_eq_false] at hc
    exact hx (h2 p hc)

theorem cleared_up (p r : Loc) (h : cleared p = true) : cleared (p ++ r) = true := by
  induction p with
  | nil => cases h
  | cons s p ih =>
    simp only [cleared, List.cons_append, Bool.or_eq_true, Bool.and_eq_true, decide_eq_true_eq] at h ⊢
    rcases h with h | ⟨h, h'⟩
    · exact .inl h
    · exact .inr ⟨h, ih h'⟩

theorem prefix_up (d p r : Loc) (h : d.isPrefixOf p = true) : d.isPrefixOf (p ++ r) = true := by
  rw [List.isPrefixOf_iff_prefix] at h ⊢
  exact h.trans (List.prefix_append _ _)

/-- making a folder and those above it -/
theorem writeAt_tree {d : Loc} {t' : Tree} (h : writeAt t d .dir = some t') :
    t' = (fun q => if q.isPrefixOf d then some .dir else t q) ∧ ∀ q, q.isPrefixOf d = true → t q = none ∨ t q = some .dir := by
  unfold writeAt at h
  split at h
  · cases h
  · rename_i hb
    split at h
    · cases h
    · rename_i hd
      cases h
      have hall : ∀ q, q.isPrefixOf d = true → t q = none ∨ t q = some .dir := by
        intro q hq
        have hq' := List.isPrefixOf_iff_prefix.1 hq
        by_cases hqd : q = d
        · subst hqd
          by_cases hn : t q = none
          · exact .inl hn
          · by_cases hdir : t q = some .dir
            · exact .inr hdir
            · exact absurd ⟨hn, fun ⟨_, h⟩ => hdir h⟩ hd
        · have hlt : q.length < d.length := by
            rcases Nat.lt_or_ge q.length d.length with h | h
            · exact h
            · exact absurd (hq'.eq_of_length_le h) hqd
          unfold blocked at hb
          simp only [List.any_eq_true, List.mem_range, Bool.and_eq_true, decide_eq_true_eq, not_exists, not_and] at hb
          have := hb q.length hlt
          rw [← List.prefix_iff_eq_take.1 hq'] at this
          by_cases hn : t q = none
          · exact .inl hn
          · by_cases hdir : t q = some .dir
            · exact .inr hdir
            · exact absurd hdir (this hn)
      refine ⟨?_, hall⟩
      funext q
      by_cases hqd : q = d
      · subst hqd
        simp
      · rw [if_neg hqd]
        unfold dirsAbove
        cases hq : q.isPrefixOf d with
        | false => simp
        | true => rcases hall q hq with h | h <;> simp [h, hqd]

theorem binDir_last (d : Loc) : ∃ r, binDir d = r ++ [binName] ∧ (binDir d).dropLast = r := by
  unfold binDir
  split
  · exact ⟨_, rfl, by simp⟩
  · exact ⟨_, rfl, by simp⟩

theorem lcmd_insert {target : Loc} {b : Str × Loc} {cache l : List Loc} {r} (h : lcmd target b t cache (.insert l) = some r) : r.1 = t := by
  cases l <;> · cases h; rfl

/-- C99: at every moment of linking, the files and folders are those of the tree. -/
theorem bsight [DecidableEq S] (hg : Installable pk g) (hi : Installed pk g t) (h0 : Sight pr root t fs) (hp : Tar.Proper fs) {x : BinRun}
    (h : BReach pk cap root g order t fs x) : Sight pr root x.links.tree x.fs ∧ Tar.Proper x.fs := by
  induction h with
  | init => exact ⟨sight_without h0 cleared, proper_without cleared_up hp⟩
  | @step x y ev hr hs ih =>
    obtain ⟨hS, hP⟩ := ih
    have hinv := linv hg hi hr.links
    unfold bstep at hs
    obtain ⟨r, h1, h2⟩ := Option.map_eq_some_iff.1 hs
    obtain ⟨z, rfl, rfl⟩ := Option.map_eq_some_iff.1 h2
    dsimp only
    unfold lstep at h1
    cases ev with
    | start =>
      have hb : binFiles root g x .start = x.fs := rfl
      rw [hb]
      dsimp only at h1
      split at h1
      · split at h1
        · cases h1
        · split at h1
          · cases h1; exact ⟨hS, hP⟩
          · split at h1 <;> · cases h1; exact ⟨hS, hP⟩
      · cases h1
    | work k =>
      dsimp only at h1
      split at h1
      · cases h1
      · rename_i i ph hk
        cases h1
        have hb : binFiles root g x (.work k) = x.fs := by
          unfold binFiles
          dsimp only
          rw [hk]
        rw [hb]; exact ⟨hS, hP⟩
      · rename_i i b rest ph hk
        obtain ⟨j0, _, nd, hj, hc⟩ := hinv.task _ (List.mem_of_getElem? hk)
        simp only [Option.some.injEq] at h1
        obtain ⟨r, h3, rfl⟩ := Option.map_eq_some_iff.1 h1
        dsimp only
        unfold binFiles
        dsimp only
        rw [hk]
        unfold lcmd at h3
        cases ph <;> try dsimp only at h3 ⊢
        case start => cases h3; exact ⟨hS, hP⟩
        case check => cases h3; exact ⟨hS, hP⟩
        case parent => cases h3; exact ⟨hS, hP⟩
        case look => cases h3; exact ⟨hS, hP⟩
        case insert l =>
          have h5 : r.1 = x.links.tree := lcmd_insert h3
          rw [h5]
          exact ⟨hS, hP⟩
        case create =>
          split at h3
          · rename_i hcr
            cases h3
            dsimp only
            obtain ⟨d1, d2⟩ := hS.dir_ hcr.1
            obtain ⟨e1, e2⟩ := hS.none_ hcr.2
            obtain ⟨w, hw1, hw2⟩ := binDir_last (targetDir g i)
            refine ⟨?_, proper_dirs hP (fun d hd q hq => ?_) fun p hp => ?_⟩
            · have := sight_dirs hS (new := fun p => decide (p = root ++ nmWord :: binDir (targetDir g i)))
                (new' := fun p => decide (p = binDir (targetDir g i))) (fun q => by simp) (fun q hq => by
                  have := of_decide_eq_true hq
                  subst this; exact .inl hcr.2)
              simpa using this
            · have := of_decide_eq_true hd
              subst this
              rw [hw1, show root ++ nmWord :: (w ++ [binName]) = (root ++ nmWord :: w) ++ [binName] by simp] at hq
              rcases List.prefix_concat_iff.1 hq with hq | hq
              · left; rw [hq, hw1]; simp
              · right
                rw [hw2] at d2
                exact hP.closed _ d2 q hq
            · have := of_decide_eq_true hp
              subst this
              exact e1
          · cases h3
        case createAll =>
          obtain ⟨t', h4, rfl⟩ := Option.map_eq_some_iff.1 h3
          dsimp only
          obtain ⟨rfl, hall⟩ := writeAt_tree h4
          refine ⟨sight_dirs hS (fun q => ?_) hall, proper_dirs hP (fun d hd q hq => ?_) fun p hp => ?_⟩
          · rw [Bool.eq_iff_iff, List.isPrefixOf_iff_prefix, List.isPrefixOf_iff_prefix, List.prefix_append_right_inj, List.cons_prefix_cons]
            simp
          · left
            rw [List.isPrefixOf_iff_prefix] at hd ⊢
            exact hq.trans hd
          · rw [List.isPrefixOf_iff_prefix] at hp
            have hnil : x.links.tree [] = some .dir := by
              rw [hinv.keeps [] not_inBin_nil]
              exact (hi [] not_inBin_nil .dir).2 (.inr ⟨rfl, .inl rfl⟩)
            have hnm := (hS.dir_ hnil).2
            have hor : p <+: root ++ [nmWord] ∨ root ++ [nmWord] <+: p := by
              refine List.prefix_or_prefix_of_prefix hp ?_
              rw [show root ++ nmWord :: binDir (targetDir g i) = root ++ [nmWord] ++ binDir (targetDir g i) by simp]
              exact List.prefix_append _ _
            rcases hor with h | ⟨w, rfl⟩
            · have := hP.closed _ hnm p h
              cases hf : x.fs.files p with
              | none => rfl
              | some i => rw [hP.apart p (by rw [hf]; simp)] at this; cases this
            · rw [show root ++ [nmWord] ++ w = root ++ nmWord :: w by simp] at hp ⊢
              rw [List.prefix_append_right_inj, List.cons_prefix_cons] at hp
              rcases hall w (List.isPrefixOf_iff_prefix.2 hp.2) with h | h
              · exact (hS.none_ h).1
              · exact (hS.dir_ h).1
        case remove =>
          split at h3
          · cases h3
          · cases h3
            exact ⟨sight_without hS _, proper_without (fun p r h => prefix_up _ p r h) hP⟩
        case link =>
          split at h3
          · rename_i hl
            cases h3
            dsimp only
            refine ⟨sight_same (fs := x.fs) ⟨fun p => ?_, fun p q hx => ?_⟩ setExec_files setExec_dirs setExec_content,
              proper_same hP setExec_files setExec_dirs⟩
            · rw [hS.files p]
              by_cases hpe : p = binDir (targetDir g i) ++ [b.1]
              · subst hpe
                rw [hl.2, if_pos rfl]
              · rw [if_neg hpe]
            · split at hx
              · rename_i he
                rw [he]
                exact bin_in hg j0 hj _
              · exact hS.links p q hx
          · cases h3

theorem installed_sight (h : Sight pr root t fs) (hi : Installed pk g (seen pr root fs)) : Installed pk g t := by
  intro p hp e
  rw [← hi p hp e, h.files p]
  cases ht : t p with
  | none => simp
  | some e' =>
    cases e' with
    | link q => exact absurd (h.links p q ht) hp
    | _ => simp

theorem breach_next {x : BinRun} (h : BReach pk cap root g order t fs x) : x.fs.next = fs.next := by
  induction h with
  | init => rfl
  | @step x y ev _ hs ih =>
    unfold bstep at hs
    obtain ⟨r, h1, h2⟩ := Option.map_eq_some_iff.1 hs
    obtain ⟨z, rfl, rfl⟩ := Option.map_eq_some_iff.1 h2
    dsimp only
    rw [← ih]
    rcases binFiles_cases (root := root) (g := g) x ev with ⟨_, he⟩ | he | ⟨_, _, _, _, _, _, he⟩ | ⟨_, _, _, _, _, _, he⟩ <;> rw [he]
    · rfl
    · unfold setExec
      split <;> rfl
    · rfl

section
variable {v : LockView P S V I} {o : XOpts} {env : Tar.Env} {build : Bytes → Option Bool} {fetch : P → Option Tar.Integrity × Option (List Tar.Ev)} {tar : P → Bytes}
variable [DecidableEq S] [DecidableEq V] [DecidableEq I]

/-- C96: linking commands belongs to the life of a project: at every moment of it, for any number of packages at a time and in whatever
order their steps come, node_modules is as the tree asks for, and the machine is in order; so whatever the other parts of C96 and C98 say
of the project is true when linking is over, or was interrupted. -/
theorem C96_linking (ho : ∀ f, (env.ord f).Perm f) (hcol : Tar.NoCol env) {recorded : IMap Str (LNode V I)}
    (h : Kept env build pr pk v o fetch tar g fs recorded) (ht : Sight pr o.root t fs) {x : BinRun} (hx : BReach pk cap o.root g order t fs x) :
    Kept env build pr pk v o fetch tar g x.fs recorded ∧ Sight pr o.root x.links.tree x.fs := by
  obtain ⟨hg, hi, _, hm⟩ := C96_kept ho hcol h
  have hit := installed_sight ht hi
  obtain ⟨hS, hP⟩ := bsight hg hit ht hm.proper hx
  obtain ⟨_, _, hless, _, hst, hix⟩ := C99_only hg hit hx
  refine ⟨.other h ⟨hP, ⟨fun p i hp => ?_, fun k i hk => ?_⟩, fun k idx hk => ?_⟩ fun p hp => ?_, hS⟩
  · rw [breach_next hx]; exact hm.sane.1 p i (hless p i hp)
  · rw [breach_next hx]; rw [hst] at hk; exact hm.sane.2 k i hk
  · rw [hix] at hk; exact hm.honest k idx hk
  · rw [hS.files p, ht.files p, (linv hg hit hx.links).keeps p hp]

/-- every command of the packages of this run is linked and can be executed -/
theorem commands_of (hg : Installable pk g) (his : Installed pk g (seen pr o.root fs)) (hm : Tar.Proper fs)
    (ht : Sight pr o.root t fs) (h0 : AllExecutable o.root t fs) {x : BinRun}
    (hx : BReach pk cap o.root g order t fs x) (hdone : x.links.done = true)
    (hnest : ∀ (i : Nat) (nd : Node Str P S), g.nodes[i]? = some nd → ∀ b ∈ pk.bins nd.pkg, nmWord ∉ b.2)
    (i : Nat) (nd : Node Str P S) (σ : List Str) (n b : Str) (f : Loc) (hio : i ∈ order) (hi : g.nodes[i]? = some nd) (hloc : LocatedAt g i (σ ++ [n]))
    (hb : (b, f) ∈ pk.bins nd.pkg) (hc : pk.content nd.pkg f ≠ none) :
    ∃ (j : Nat) (nj : Node Str P S) (n' : Str) (f' p q : Loc), g.nodes[j]? = some nj ∧ LocatedAt g j (σ ++ [n']) ∧ (b, f') ∈ pk.bins nj.pkg ∧
      nmWord :: p = folder σ ++ [nmWord, binName, b] ∧ nmWord :: q = folder (σ ++ [n']) ++ f' ∧ x.links.tree p = some (.link q) ∧
      (pk.content nj.pkg f' ≠ none → Tar.Bits x.fs (o.root ++ nmWord :: q) 0o755 ∨ x.fs.dirs (o.root ++ nmWord :: q) = true) := by
  have hit := installed_sight ht his
  have hroot : ∀ {j : Nat} {nj : Node Str P S} {n' : Str}, g.nodes[j]? = some nj → LocatedAt g j (σ ++ [n']) → j ≠ 0 := by
    rintro j nj n' hj hl rfl
    have h1 := ((locatedAt_iff hg.tree (ord_of hg)).1 hl).2
    have h2 := ((locatedAt_iff hg.tree (ord_of hg)).1 (.root hj)).2
    rw [h1] at h2
    simp at h2
  obtain ⟨j, nj, n', f', p, q, hj, hl, hb', hp, hq, hlink⟩ := linv_done hg hit (linv hg hit hx.links) hdone hio (hroot hi hloc) hi hloc hb (hnest i nd hi _ hb) hc
  refine ⟨j, nj, n', f', p, q, hj, hl, hb', hp, hq, hlink, fun hc' => ?_⟩
  have j0 := hroot hj hl
  have hq' : q = targetDir g j ++ f' := by
    rw [← target_folder hg.tree (ord_of hg) j0 hl] at hq
    simpa using hq
  have hnb : ¬ InBin q := by
    rw [hq']
    exact command_not_inBin hg j0 hl (hnest j nj hj _ hb')
  obtain ⟨hS, _⟩ := bsight hg hit ht hm hx
  cases hcx : pk.content nj.pkg f' with
  | none => exact absurd hcx hc'
  | some e =>
    have hte : t q = some e := (hit q hnb e).2 (.inl ⟨j, nj, _, f', j0, hj, hl, hq, hcx⟩)
    have hxe : x.links.tree q = some e := by rw [(linv hg hit hx.links).keeps q hnb]; exact hte
    have hse := hS.files q
    rw [hxe] at hse
    cases e with
    | link w => exact absurd (ht.links q w hte) hnb
    | dir => exact .inr (hS.dir_ hxe).2
    | file c =>
      left
      unfold seen at hse
      split at hse
      · rename_i k hk
        have hbits : Tar.Bits x.fs (o.root ++ nmWord :: q) (x.fs.mode k) := ⟨k, hk, rfl⟩
        have := C99_executable hx h0 p q hlink _ hbits
        rw [this] at hbits
        exact hbits
      · split at hse <;> cases hse


/-- C99: in every project that is kept by orogene, when linking is over, every command that a package of this run declares (and whose file
is in the package) is linked to a file that is there and that everybody can read and execute (or to a folder, if the package says so), if
the old links that were left in place lead to such files. -/
theorem C99_kept (ho : ∀ f, (env.ord f).Perm f) (hcol : Tar.NoCol env) {recorded : IMap Str (LNode V I)}
    (h : Kept env build pr pk v o fetch tar g fs recorded) (ht : Sight pr o.root t fs) (h0 : AllExecutable o.root t fs) {x : BinRun}
    (hx : BReach pk cap o.root g order t fs x) (hdone : x.links.done = true)
    (hnest : ∀ (i : Nat) (nd : Node Str P S), g.nodes[i]? = some nd → ∀ b ∈ pk.bins nd.pkg, nmWord ∉ b.2)
    (i : Nat) (nd : Node Str P S) (σ : List Str) (n b : Str) (f : Loc) (hio : i ∈ order) (hi : g.nodes[i]? = some nd) (hloc : LocatedAt g i (σ ++ [n]))
    (hb : (b, f) ∈ pk.bins nd.pkg) (hc : pk.content nd.pkg f ≠ none) :
    ∃ (j : Nat) (nj : Node Str P S) (n' : Str) (f' p q : Loc), g.nodes[j]? = some nj ∧ LocatedAt g j (σ ++ [n']) ∧ (b, f') ∈ pk.bins nj.pkg ∧
      nmWord :: p = folder σ ++ [nmWord, binName, b] ∧ nmWord :: q = folder (σ ++ [n']) ++ f' ∧ x.links.tree p = some (.link q) ∧
      (pk.content nj.pkg f' ≠ none → Tar.Bits x.fs (o.root ++ nmWord :: q) 0o755 ∨ x.fs.dirs (o.root ++ nmWord :: q) = true) := by
  obtain ⟨hg, his, _, hm⟩ := C96_kept ho hcol h
  exact commands_of hg his hm.proper ht h0 hx hdone hnest i nd σ n b f hio hi hloc hb hc

end

end Hoisted
end Oro
