import Verif.Proofs.InstallRun
import Verif.Proofs.Isolated
import Verif.Spec.StoreRun
/-
The extractions and links of an installation by the isolated linker.
-/

set_option linter.unusedSectionVars false

namespace Oro
namespace Tar

/-- folders made elsewhere do not matter -/
theorem fine_dirs {env : Env} {jobs tar o} {w : Runs} {D : Loc → Bool} (hF : Fine env jobs tar o w) (hup : ∀ d, w.fs.dirs d = true → D d = true)
    (hnew : ∀ n j, jobs n = some j → ∀ d, Own j d → d ≠ j.dir → D d = true → w.fs.dirs d = true) :
    Fine env jobs tar o { w with fs := { w.fs with dirs := D } } where
  inv := {
    sane := hF.inv.sane
    honest := hF.inv.honest
    right := hF.inv.right
    files := hF.inv.files
    next := hF.inv.next
    content := hF.inv.content
    pc := fun n j hj => pcinv_other (a := w.fs) hF.inv.sane (fun _ _ _ => rfl) (fun _ _ h => .inl h) (hF.inv.pc n j hj) }
  pc n j hj := fine_other (a := w.fs) (fun _ _ _ => rfl) hup (hnew n j hj) (fun _ h => h) (fun _ idx h => ⟨idx, h⟩) (hF.inv.pc n j hj) (hF.pc n j hj)
  dirs n j hj d ho hne hd := hF.dirs n j hj d ho hne (hnew n j hj d ho hne hd)
  index n j hj i hi ce hce := hF.index n j hj i hi ce hce

theorem mkdirp_new {c : List Loc} {fs : FS} {p : Loc} {c' fs'} (h : mkdirp c fs p = some (c', fs')) :
    (∀ d ∈ c, d ∈ c') ∧ p ∈ c' ∧ ∀ d, fs'.dirs d = true → fs.dirs d = true ∨ (d <+: p ∧ d ∈ c') := by
  unfold mkdirp at h
  split at h
  · rename_i hp
    cases h
    exact ⟨fun _ h => h, List.contains_iff_mem.1 hp, fun _ h => .inl h⟩
  · split at h
    · simp only [Option.map_eq_some_iff, Prod.mk.injEq] at h
      obtain ⟨a, ha, rfl, rfl⟩ := h
      unfold createDir at ha
      split at ha
      · cases ha
      · cases ha
        refine ⟨fun d hd => List.mem_cons_of_mem _ hd, List.mem_cons_self .., fun d hd => ?_⟩
        simp only [upd] at hd
        split at hd
        · rename_i hdp; subst hdp; exact .inr ⟨List.prefix_refl _, List.mem_cons_self ..⟩
        · exact .inl hd
    · simp only [Option.map_eq_some_iff, Prod.mk.injEq] at h
      obtain ⟨a, ha, rfl, rfl⟩ := h
      unfold createDirAll at ha
      split at ha
      · cases ha
      · cases ha
        refine ⟨fun d hd => List.mem_append_right _ hd, List.mem_append_left _ (List.mem_inits _ _ |>.2 (List.prefix_refl _)), fun d hd => ?_⟩
        simp only [Bool.or_eq_true, List.contains_iff_mem] at hd
        rcases hd with hd | hd
        · exact .inl hd
        · exact .inr ⟨(List.mem_inits _ _).1 hd, List.mem_append_left _ hd⟩

theorem mkdirp_works {c : List Loc} {fs : FS} {p : Loc} (hp : p ≠ []) (hno : ∀ q, q <+: p → fs.files q = none) (hc : ∀ d ∈ c, fs.dirs d = true)
    (hall : fs.dirs p = true → p ∈ c) : ∃ x, mkdirp c fs p = some x := by
  unfold mkdirp
  split
  · exact ⟨_, rfl⟩
  · rename_i h1
    split
    · rename_i h2
      have h3 : fs.dirs p.dropLast = true := by
        rcases Bool.or_eq_true_iff.1 h2 with h | h
        · exact absurd (of_decide_eq_true h) hp
        · exact hc _ (List.contains_iff_mem.1 h)
      unfold createDir FS.taken
      rw [hno p (List.prefix_refl _), h3]
      cases hx : fs.dirs p with
      | true => exact absurd (List.contains_iff_mem.2 (hall hx)) h1
      | false => exact ⟨_, rfl⟩
    · unfold createDirAll
      rw [if_neg]
      · exact ⟨_, rfl⟩
      · intro h
        obtain ⟨q, hq, hs⟩ := List.any_eq_true.1 h
        rw [hno q ((List.mem_inits _ _).1 hq)] at hs
        cases hs

theorem housed_dirs {jobs : Nat → Option Job} {o : FS} {w : Runs} {D : Loc → Bool} (h : Housed jobs o w) (hup : ∀ d, w.fs.dirs d = true → D d = true)
    (hcl : DirsClosed w.fs → DirsClosed { w.fs with dirs := D }) : Housed jobs o { w with fs := { w.fs with dirs := D } } where
  pc n j hj := (h.pc n j hj).mono hup
  files := h.files.of_files hup (fun _ h => h)
  up d hd := hup d (h.up d hd)
  closed hc := hcl (h.closed hc)

end Tar

namespace Iso
open Hoisted (Bytes Entry Tree Pkgs storeName XOpts tarFor Packed Obtainable EmptyModules tail_names map_normal_inj kNodeModules_eq)
variable {P S : Type} [DecidableEq S]
variable {env : Tar.Env} {build : Bytes → Option (Bool × Bool)} {pr : Bytes → Bytes} {pk : Pkgs P} {v : Env} {g : Graph Str P S} {o : XOpts}
  {fetch : P → Option Tar.Integrity × Option (List Tar.Ev)} {tar : P → Bytes} {fs : Tar.FS}

theorem jobsFor_some {i : Nat} {j : Tar.Job} (h : jobsFor o v g fetch i = some j) :
    IsPkg g i ∧ (∃ nd, g.nodes[i]? = some nd ∧ tarFor g tar i = tar nd.pkg) ∧ j.dir = o.root ++ nmWord :: home v g i := by
  unfold jobsFor at h
  split at h
  · cases h
  · rename_i h0
    rw [Option.map_eq_some_iff] at h
    obtain ⟨nd, hn, rfl⟩ := h
    exact ⟨⟨h0, nd, hn⟩, ⟨nd, hn, by unfold tarFor; rw [hn]⟩, rfl⟩

theorem jobsFor_of {i : Nat} (h : IsPkg g i) : ∃ j, jobsFor o v g fetch i = some j := by
  obtain ⟨h0, nd, hi⟩ := h
  unfold jobsFor
  rw [if_neg h0, hi]
  exact ⟨_, rfl⟩

theorem jobsFor_zero : jobsFor o v g fetch 0 = none := rfl

/-- below node_modules, locations relative to it do as well -/
theorem rel_prefix {root a b : Loc} : root ++ nmWord :: a <+: root ++ nmWord :: b ↔ a <+: b := by
  rw [List.prefix_append_right_inj]
  simp

theorem rel_cases {root q b : Loc} (h : q <+: root ++ nmWord :: b) : q <+: root ++ [nmWord] ∨ ∃ a, a ≠ [] ∧ q = root ++ nmWord :: a ∧ a <+: b := by
  rw [show root ++ nmWord :: b = (root ++ [nmWord]) ++ b by simp] at h
  rcases List.prefix_or_prefix_of_prefix h (List.prefix_append _ _) with hx | ⟨r, rfl⟩
  · exact .inl hx
  · by_cases hr : r = []
    · subst hr; exact .inl (by simp)
    · exact .inr ⟨r, hr, by simp, by simpa using h⟩

theorem home_not_inside {i m : Nat} (hg : Installable pk v g) (hi : IsPkg g i) (hm : IsPkg g m) {r : Loc} (hr : r ≠ []) : ¬ home v g i ++ r <+: home v g m := by
  intro h
  have := home_apart hg hi hm ((List.prefix_append _ _).trans h) (List.prefix_refl _)
  subst this
  have := h.length_le
  rw [List.length_append] at this
  have : r.length ≠ 0 := fun hz => hr (List.length_eq_zero_iff.1 hz)
  omega

theorem laid_of (hg : Installable pk v g) : Tar.Laid (jobsFor o v g fetch) := by
  intro n j hj n' j' hj' hne
  obtain ⟨h0, _, hd⟩ := jobsFor_some (tar := fun _ => []) hj
  obtain ⟨h0', _, hd'⟩ := jobsFor_some (tar := fun _ => []) hj'
  rw [hd, hd']
  constructor
  · intro h
    refine hne (home_apart hg h0 h0' (List.prefix_refl _) ?_)
    rw [show home v g n = home v g n' by simpa using h]
  · intro h
    exact absurd (home_apart hg h0 h0' (rel_prefix.1 h) (List.prefix_refl _)) hne

theorem ob_of (h : Start env build pr pk v g o fetch tar fs) {n j} (hj : jobsFor o v g fetch n = some j) : Obtainable env j (tarFor g tar n) fs := by
  obtain ⟨⟨h0, _⟩, ⟨nd, hn, ht⟩, _⟩ := jobsFor_some (tar := tar) hj
  rw [ht]
  exact h.packages n nd j h0 hn hj

theorem ready_of (h : Start env build pr pk v g o fetch tar fs) : Tar.Ready env (jobsFor o v g fetch) (tarFor g tar) fs := by
  have hg := h.tree
  have emp : ∀ n r, fs.files (o.root ++ nmWord :: (home v g n ++ r)) = none ∧ fs.dirs (o.root ++ nmWord :: (home v g n ++ r)) = false :=
    fun n r => h.bare.empty _ (by simp [home])
  refine ⟨laid_of hg, ?_, ?_, ?_, ?_, fun n j hj => (ob_of h hj).fits, fun n j hj => (ob_of h hj).complete,
    fun n j hj => (ob_of h hj).plain, ?_, fun n j hj => (ob_of h hj).sound, fun n j hj => (ob_of h hj).served,
    fun n j hj => (ob_of h hj).cached⟩
  · intro n j hj hx
    obtain ⟨_, _, hd⟩ := jobsFor_some (tar := tar) hj
    rw [hd] at hx
    simp at hx
  · intro n j hj p hp
    obtain ⟨_, _, hd⟩ := jobsFor_some (tar := tar) hj
    rw [hd] at hp
    obtain ⟨r, rfl⟩ := Hoisted.inside_target hp
    exact (emp n r).1
  · intro n j hj q hq
    obtain ⟨_, _, hd⟩ := jobsFor_some (tar := tar) hj
    rw [hd] at hq
    rcases rel_cases hq with hx | ⟨a, ha, rfl, _⟩
    · exact h.bare.above q hx
    · exact (h.bare.empty a ha).1
  · intro n j hj d hp _
    obtain ⟨_, _, hd⟩ := jobsFor_some (tar := tar) hj
    rw [hd] at hp
    obtain ⟨r, rfl⟩ := Hoisted.inside_target hp
    exact (emp n r).2
  · intro n j hj e he hr hx
    obtain ⟨⟨h0, _⟩, ⟨nd, hn, ht⟩, _⟩ := jobsFor_some (tar := tar) hj
    obtain ⟨r, h1, _⟩ := tail_names (ob_of h hj).plain he hr []
    rw [h1, List.head?_map] at hx
    cases r with
    | nil => cases hx
    | cons x r =>
      simp only [List.head?_cons, Option.map_some, Option.some.injEq, Comp.normal.injEq] at hx
      rw [kNodeModules_eq] at hx
      subst hx
      have hb := hg.bundled n nd r h0 hn
      rw [ht] at he
      have := (h.packed n nd h0 hn (nmWord :: r) (.file (pr e.content))).2 (.inl ⟨e, he, hr, h1, rfl⟩)
      rw [hb] at this
      cases this

/-! ### where links are -/

/-- the entry of a dependency is in nobody's folder, node_modules apart -/
theorem own_entry (hg : Installable pk v g) {m : Nat} {j : Tar.Job} (hj : jobsFor o v g fetch m = some j) {i k : Nat} (hi : Src g i) (hk : IsPkg g k)
    {d : Loc} (hd : d <+: entryFor v g i k) (ho : Tar.Own j (o.root ++ nmWord :: d)) : m = i ∧ d = home v g m := by
  obtain ⟨hm, _, hdir⟩ := jobsFor_some (tar := fun _ => []) hj
  obtain ⟨h1, h2⟩ := ho
  unfold Tar.Inside at h1 h2
  rw [hdir] at h1 h2
  rw [List.append_assoc, List.cons_append, rel_prefix] at h2
  rw [rel_prefix] at h1
  rcases hi with rfl | hi
  · exact absurd (head_of_home h1) (root_entry_head hg hk hd)
  · have : m = i := home_apart hg hm hi (h1.trans hd) (home_entry v g hi.1)
    subst this
    refine ⟨rfl, ?_⟩
    obtain ⟨r, rfl⟩ := h1
    cases r with
    | nil => simp
    | cons x r =>
      exfalso
      apply h2
      unfold entryFor at hd
      rw [nm_pkg v g hm.1, List.append_assoc, List.prefix_append_right_inj] at hd
      obtain ⟨y, hy⟩ := hd
      simp only [List.cons_append, List.cons.injEq, List.nil_append] at hy
      rw [hy.1, kNodeModules_eq]
      exact ⟨r, by simp⟩

theorem entry_ne_home (hg : Installable pk v g) {i k m : Nat} (hi : Src g i) (hk : IsPkg g k) (hm : IsPkg g m) : ¬ entryFor v g i k <+: home v g m := by
  intro h
  rcases hi with rfl | hi
  · exact root_entry_head hg hk (List.prefix_refl _) (head_of_prefix h (entry_ne_nil hg hk) (home_head v g m))
  · unfold entryFor at h
    rw [nm_pkg v g hi.1, List.append_assoc] at h
    exact home_not_inside hg hi hm (by simp) h

theorem entry_dropLast (hg : Installable pk v g) {i k : Nat} (hk : IsPkg g k) : nm v g i <+: (entryFor v g i k).dropLast := by
  rcases entry_cases (v := v) (i := i) hg hk with ⟨c, _, h, _⟩ | ⟨s, t, _, h, _⟩
  · rw [h]
  · rw [h]; exact List.prefix_append _ _

/-- entries of dependencies do not get into each other's way -/
theorem entry_in_entry (hg : Installable pk v g) {i k i' k' : Nat} (hi : Src g i) (hi' : Src g i') (hk : IsPkg g k) (hk' : IsPkg g k')
    (h : entryFor v g i k <+: (entryFor v g i' k').dropLast) : False := by
  have : i = i' := zone hg hi hi' hk' (segs_nonempty hg hk) (segs_head' hg hk) (h.trans (List.dropLast_prefix _))
  subst this
  exact entry_overlap hg hk hk' h

theorem entry_inj (hg : Installable pk v g) {i k i' k' : Nat} (hi : Src g i) (hi' : Src g i') (hk : k ∈ depsOf g i) (hk' : k' ∈ depsOf g i')
    (h : entryFor v g i k = entryFor v g i' k') : i = i' ∧ k = k' := by
  have : i = i' := zone hg hi hi' (dep_pkg hg hk') (segs_nonempty hg (dep_pkg hg hk)) (segs_head' hg (dep_pkg hg hk))
    (by rw [show nm v g i ++ PSpec.splitChar '/' (nameOf g k) = entryFor v g i k from rfl, h])
  subst this
  refine ⟨rfl, name_dep hg hk hk' (segs_eq (pkg_name hg (dep_pkg hg hk)).1 (pkg_name hg (dep_pkg hg hk')).1 ?_)⟩
  exact List.append_cancel_left h

/-! ### how far links are -/

/-- the dependencies that are linked already -/
def past (ph : LPhase) (deps : List Nat) : List Nat := match ph with
  | .linking _ t => deps.take (deps.length - t.length)
  | .making _ _ t | .placing _ _ t => deps.take (deps.length - (t.length + 1))
  | .finished _ => deps
  | _ => []

theorem past_eq {pre t : List Nat} : (pre ++ t).take ((pre ++ t).length - t.length) = pre := by simp

theorem past_sub {ph : LPhase} {deps : List Nat} {k : Nat} (h : k ∈ past ph deps) : k ∈ deps := by
  unfold past at h
  split at h
  · exact List.mem_of_mem_take h
  · exact List.mem_of_mem_take h
  · exact List.mem_of_mem_take h
  · exact h
  · cases h

/-- what is to become of a package -/
def whatFor (pk : Pkgs P) (g : Graph Str P S) (i : Nat) : Bool × Bool := match g.nodes[i]? with
  | some nd => (pk.scripts nd.pkg, !(pk.bins nd.pkg).isEmpty)
  | none => (false, false)

/-- the extraction is over -/
def Ended (pk : Pkgs P) (g : Graph Str P S) (n : Nat) (x : Option (Bool × Bool)) (w : LRun) : Prop :=
  (n = 0 ∧ x = none) ∨ (n ≠ 0 ∧ x = some (whatFor pk g n) ∧ ∃ i, w.runs.pcs n = .done i)

/-- what is known where a package stands -/
def PhaseOK (pk : Pkgs P) (v : Env) (g : Graph Str P S) (o : XOpts) (n : Nat) (ph : LPhase) (w : LRun) : Prop := match ph with
  | .waiting => True
  | .extracting => n ≠ 0
  | .linking x t => Ended pk g n x w ∧ ∃ pre, depsOf g n = pre ++ t
  | .making x d t => Ended pk g n x w ∧ ∃ pre, depsOf g n = pre ++ d :: t
  | .placing x d t => Ended pk g n x w ∧ (∃ pre, depsOf g n = pre ++ d :: t) ∧
      w.runs.fs.dirs (o.root ++ nmWord :: (entryFor v g n d).dropLast) = true
  | .finished x => Ended pk g n x w
  | .failed => False

/-- where a folder may come from -/
def Sprung (env : Tar.Env) (v : Env) (g : Graph Str P S) (o : XOpts) (fetch : P → Option Tar.Integrity × Option (List Tar.Ev)) (tar : P → Bytes)
    (fs : Tar.FS) (w : LRun) (d : Loc) : Prop :=
  fs.dirs d = true ∨
  (∃ n j, jobsFor o v g fetch n = some j ∧ w.phase n ≠ .waiting ∧ (d <+: j.dir ∨ ∃ e ∈ (env.untar (tarFor g tar n)).1, e.regular = true ∧
    d <+: (Tar.place j.dir e).dropLast)) ∨
  ∃ i k, Src g i ∧ k ∈ depsOf g i ∧ w.phase i ≠ .waiting ∧ d <+: o.root ++ nmWord :: (entryFor v g i k).dropLast

/-- where an installation stands -/
structure LInv (env : Tar.Env) (pk : Pkgs P) (v : Env) (g : Graph Str P S) (o : XOpts) (fetch : P → Option Tar.Integrity × Option (List Tar.Ev))
    (tar : P → Bytes) (fs : Tar.FS) (w : LRun) : Prop where
  fine : Tar.Fine env (jobsFor o v g fetch) (tarFor g tar) fs w.runs
  housed : Tar.Housed (jobsFor o v g fetch) fs w.runs
  sprung : ∀ d, w.runs.fs.dirs d = true → Sprung env v g o fetch tar fs w d
  links : ∀ p t, w.links p = some t ↔ ∃ i k, Src g i ∧ k ∈ past (w.phase i) (depsOf g i) ∧ p = entryFor v g i k ∧ t = diff (home v g k) p.dropLast
  linked : ∀ p t, w.links p = some t → w.runs.fs.dirs (o.root ++ nmWord :: p.dropLast) = true
  cached : ∀ c ∈ w.cache, w.runs.fs.dirs c = true
  top : o.root ++ [nmWord] ∈ w.cache
  known : ∀ i k, Src g i → k ∈ depsOf g i → ∀ d, nm v g i <+: d → d <+: (entryFor v g i k).dropLast →
    w.runs.fs.dirs (o.root ++ nmWord :: d) = true → o.root ++ nmWord :: d ∈ w.cache
  phase : ∀ n, n < g.nodes.length → PhaseOK pk v g o n (w.phase n) w

theorem src_index {n : Nat} (h : n < g.nodes.length) : Src g n := by
  by_cases h0 : n = 0
  · exact .inl h0
  · exact .inr ⟨h0, _, List.getElem?_eq_getElem h⟩

theorem lt_of_pkg {n : Nat} (h : IsPkg g n) : n < g.nodes.length := by
  obtain ⟨_, nd, hn⟩ := h
  by_contra hge
  rw [List.getElem?_eq_none (by omega)] at hn
  cases hn

section
variable {w : LRun}

/-- no files where links are or lead over -/
theorem no_file_link (h : Start env build pr pk v g o fetch tar fs) (hI : Tar.Inv True env (jobsFor o v g fetch) (tarFor g tar) fs w.runs)
    {i k : Nat} (hi : Src g i) (hk : IsPkg g k) {q : Loc} (hq : q <+: o.root ++ nmWord :: entryFor v g i k) : w.runs.fs.files q = none := by
  rw [hI.files q]
  · rcases rel_cases hq with hx | ⟨a, ha, rfl, _⟩
    · exact h.bare.above q hx
    · exact (h.bare.empty a ha).1
  · intro m j hj e he hr hx
    obtain ⟨ho, hne⟩ := ((ready_of h).place hj).own he hr
    obtain ⟨_, _, hd⟩ := jobsFor_some (tar := tar) hj
    rw [hx] at ho hne
    rcases rel_cases hq with hy | ⟨a, ha, rfl, hy⟩
    · have h1 := (ho.1.trans hy).length_le
      rw [hd] at h1
      simp only [List.length_append, List.length_cons, List.length_nil] at h1
      have : (home v g m).length ≠ 0 := fun hz => home_ne_nil v g m (List.length_eq_zero_iff.1 hz)
      omega
    · obtain ⟨rfl, rfl⟩ := own_entry h.tree hj hi hk hy ho
      exact hne hd.symm

/-- no folder at the entry of a dependency -/
theorem no_dir_link (h : Start env build pr pk v g o fetch tar fs) (hI : LInv env pk v g o fetch tar fs w)
    {i k : Nat} (hi : Src g i) (hk : IsPkg g k) : w.runs.fs.dirs (o.root ++ nmWord :: entryFor v g i k) = false := by
  cases hx : w.runs.fs.dirs (o.root ++ nmWord :: entryFor v g i k) with
  | false => rfl
  | true =>
    exfalso
    rcases hI.sprung _ hx with hx | ⟨m, j, hj, _, hx⟩ | ⟨i', k', hi', hk', _, hx⟩
    · rw [(h.bare.empty _ (entry_ne_nil h.tree hk)).2] at hx
      cases hx
    · obtain ⟨hm, _, hd⟩ := jobsFor_some (tar := tar) hj
      have up : ¬ o.root ++ nmWord :: entryFor v g i k <+: j.dir := by
        rw [hd, rel_prefix]
        exact entry_ne_home h.tree hi hk hm
      rcases hx with hx | ⟨e, he, hr, hx⟩
      · exact up hx
      · have hP := ((ready_of h).place hj).parent he hr
        rcases List.prefix_or_prefix_of_prefix hx hP.1.1 with hy | hy
        · exact up hy
        · obtain ⟨_, h2⟩ := own_entry h.tree hj hi hk (List.prefix_refl _) (Tar.own_between hP.1 hx hy)
          exact entry_ne_home h.tree hi hk hm (by rw [h2])
    · exact entry_in_entry h.tree hi hi' hk (dep_pkg h.tree hk') (rel_prefix.1 hx)

/-- the entry of a dependency that is still to be linked is not there -/
theorem look_none (h : Start env build pr pk v g o fetch tar fs) (hI : LInv env pk v g o fetch tar fs w) {n d : Nat} (hn : n < g.nodes.length)
    {pre t : List Nat} (hd : depsOf g n = pre ++ d :: t) (hp : past (w.phase n) (depsOf g n) = pre) :
    w.look o (entryFor v g n d) = none := by
  have hmem : d ∈ depsOf g n := by rw [hd]; simp
  have hk := dep_pkg h.tree hmem
  unfold LRun.look
  have hl : w.links (entryFor v g n d) = none := by
    cases hx : w.links (entryFor v g n d) with
    | none => rfl
    | some t =>
      exfalso
      obtain ⟨i, k, hi, hkp, he, _⟩ := (hI.links _ _).1 hx
      obtain ⟨rfl, rfl⟩ := entry_inj h.tree (src_index hn) hi hmem (past_sub hkp) he
      rw [hp] at hkp
      have hnd : (depsOf g n).Nodup := List.Nodup.of_map _ (h.tree.single n)
      rw [hd, List.nodup_append] at hnd
      exact hnd.2.2 d hkp d (by simp) rfl
  rw [hl, no_file_link h hI.fine.inv (src_index hn) hk (List.prefix_refl _), no_dir_link h hI (src_index hn) hk]
  rfl

/-- the folder of a package that has not begun is not there -/
theorem not_taken (h : Start env build pr pk v g o fetch tar fs) (hI : LInv env pk v g o fetch tar fs w) {n : Nat} {j : Tar.Job}
    (hj : jobsFor o v g fetch n = some j) (hw : w.phase n = .waiting) : w.runs.fs.taken j.dir = false := by
  obtain ⟨hn, _, hd⟩ := jobsFor_some (tar := tar) hj
  unfold Tar.FS.taken
  rw [Tar.no_file (ready_of h) hI.fine.inv hj (.inr (List.prefix_refl _))]
  cases hx : w.runs.fs.dirs j.dir with
  | false => rfl
  | true =>
    exfalso
    rcases hI.sprung _ hx with hx | ⟨m, j', hj', hph, hx⟩ | ⟨i, k, hi, hk, hph, hx⟩
    · rw [hd, (h.bare.empty _ (home_ne_nil v g n)).2] at hx
      cases hx
    · have hne : n ≠ m := fun he => hph (he ▸ hw)
      obtain ⟨hm, _, hd'⟩ := jobsFor_some (tar := tar) hj'
      have up : ¬ j.dir <+: j'.dir := by
        rw [hd, hd', rel_prefix]
        exact fun hp => hne (home_apart h.tree hn hm hp (List.prefix_refl _))
      rcases hx with hx | ⟨e, he, hr, hx⟩
      · exact up hx
      · have hP := ((ready_of h).place hj').parent he hr
        rcases List.prefix_or_prefix_of_prefix hx hP.1.1 with hy | hy
        · exact up hy
        · exact Tar.own_disjoint (laid_of h.tree) hj hj' hne (Tar.own_self j) (Tar.own_between hP.1 hx hy)
    · rw [hd, rel_prefix] at hx
      have hx := hx.trans (List.dropLast_prefix _)
      rcases hi with rfl | hi
      · exact root_entry_head h.tree (dep_pkg h.tree hk) hx (home_head v g n)
      · have := home_apart h.tree hn hi hx (home_entry v g hi.1)
        exact hph (this ▸ hw)

theorem linv_init (hs : Tar.Sane fs) (hh : Tar.Honest env fs) (h : Start env build pr pk v g o fetch tar fs) :
    LInv env pk v g o fetch tar fs (.init o fs) where
  fine := Tar.fine_init hs (Tar.honest_weak hh) (ready_of h)
  housed := Tar.housed_init fs
  sprung _ hd := .inl hd
  links p t := by
    constructor
    · intro hx; cases hx
    · rintro ⟨_, _, _, hx, _⟩; cases hx
  linked _ _ hx := by cases hx
  cached c hc := h.bare.closed _ h.bare.modules c ((List.mem_inits _ _).1 hc)
  top := (List.mem_inits _ _).2 (List.prefix_refl _)
  known i k _ _ d _ _ hx := by
    by_cases hd : d = []
    · subst hd; exact (List.mem_inits _ _).2 (List.prefix_refl _)
    · have : fs.dirs (o.root ++ nmWord :: d) = true := hx
      rw [(h.bare.empty d hd).2] at this
      cases this
  phase _ _ := trivial

/-- only the phase changes -/
theorem linv_phase (hI : LInv env pk v g o fetch tar fs w) {n : Nat} {ph : LPhase}
    (hp : past ph (depsOf g n) = past (w.phase n) (depsOf g n)) (hw : ph ≠ .waiting) (hok : PhaseOK pk v g o n ph w) :
    LInv env pk v g o fetch tar fs { w with phase := Tar.upd w.phase n ph } := by
  have begun : ∀ m, w.phase m ≠ .waiting → Tar.upd w.phase n ph m ≠ .waiting := by
    intro m hm
    by_cases he : m = n
    · subst he; rw [Tar.upd_self]; exact hw
    · rw [Tar.upd_ne _ _ he]; exact hm
  have hpast : ∀ i, past (Tar.upd w.phase n ph i) (depsOf g i) = past (w.phase i) (depsOf g i) := by
    intro i
    by_cases he : i = n
    · subst he; rw [Tar.upd_self]; exact hp
    · rw [Tar.upd_ne _ _ he]
  refine ⟨hI.fine, hI.housed, fun d hd => ?_, fun p t => ?_, hI.linked, hI.cached, hI.top, hI.known, fun m hm => ?_⟩
  · rcases hI.sprung d hd with hx | ⟨m, j, h1, h2, h3⟩ | ⟨i, k, h1, h2, h3, h4⟩
    · exact .inl hx
    · exact .inr (.inl ⟨m, j, h1, begun m h2, h3⟩)
    · exact .inr (.inr ⟨i, k, h1, h2, begun i h3, h4⟩)
  · rw [hI.links p t]
    simp only [hpast]
  · show PhaseOK pk v g o m (Tar.upd w.phase n ph m) _
    by_cases he : m = n
    · subst he; rw [Tar.upd_self]; exact hok
    · rw [Tar.upd_ne _ _ he]
      exact hI.phase m hm

theorem pcs_other {jobs : Nat → Option Tar.Job} {r : Tar.Runs} {n m : Nat} (h : m ≠ n) : (r.step env jobs n).pcs m = r.pcs m := by
  unfold Tar.Runs.step
  cases jobs n with
  | none => rfl
  | some j => exact Tar.upd_ne _ _ h

/-- an extraction goes on -/
theorem linv_runs (ho : ∀ f, (env.ord f).Perm f) (hcol : Tar.NoCol env) (h : Start env build pr pk v g o fetch tar fs)
    (hI : LInv env pk v g o fetch tar fs w) {n : Nat} (hw : w.phase n = .extracting) :
    LInv env pk v g o fetch tar fs { w with runs := w.runs.step env (jobsFor o v g fetch) n } := by
  have hF := Tar.fine_step (n := n) ho hcol (ready_of h) hI.fine
  have hH := Tar.housed_runs_step (n := n) ho hI.housed
  cases hj : jobsFor o v g fetch n with
  | none =>
    have : w.runs.step env (jobsFor o v g fetch) n = w.runs := by unfold Tar.Runs.step; rw [hj]
    rw [this]
    exact hI
  | some j =>
    have hst : (w.runs.step env (jobsFor o v g fetch) n).fs = (j.step env (w.runs.pcs n) w.runs.fs).2 := by
      unfold Tar.Runs.step
      rw [hj]
    have hG := Tar.fine_gives ho hcol (ready_of h) hI.fine hj
    rw [← hst] at hG
    obtain ⟨hn, _, hdir⟩ := jobsFor_some (tar := tar) hj
    refine ⟨hF, hH, fun d hd => ?_, hI.links, fun p t ht => hG.dirs _ (hI.linked p t ht), fun c hc => hG.dirs _ (hI.cached c hc), hI.top,
      fun i k hi hk d h1 h2 hd => ?_, fun m hm => ?_⟩
    · rcases hG.new d hd with hx | hx
      · exact hI.sprung d hx
      · exact .inr (.inl ⟨n, j, hj, by rw [hw]; exact fun h => (by cases h), hx⟩)
    · have hkp := dep_pkg h.tree hk
      have h3 := h2.trans (List.dropLast_prefix _)
      have up : o.root ++ nmWord :: d <+: j.dir → o.root ++ nmWord :: d ∈ w.cache := by
        intro hx
        rw [hdir, rel_prefix] at hx
        rcases hi with rfl | hi
        · by_cases hd0 : d = []
          · subst hd0; exact hI.top
          · exact absurd (head_of_prefix hx hd0 (home_head v g n)) (root_entry_head h.tree hkp h3)
        · rw [nm_pkg v g hi.1] at h1
          exact absurd (h1.trans hx) (home_not_inside h.tree hi hn (by simp))
      rcases hG.new _ hd with hx | hx | ⟨e, he, hr, hx⟩
      · exact hI.known i k hi hk d h1 h2 hx
      · exact up hx
      · have hP := ((ready_of h).place hj).parent he hr
        rcases List.prefix_or_prefix_of_prefix hx hP.1.1 with hy | hy
        · exact up hy
        · exfalso
          obtain ⟨rfl, rfl⟩ := own_entry h.tree hj hi hkp h3 (Tar.own_between hP.1 hx hy)
          rw [nm_pkg v g hn.1] at h1
          exact home_not_inside h.tree hn hn (List.cons_ne_nil _ _) h1
    · have hm' := hI.phase m hm
      have ended : ∀ x, m ≠ n → Ended pk g m x w → Ended pk g m x { w with runs := w.runs.step env (jobsFor o v g fetch) n } := by
        rintro x hne (hx | ⟨hx1, hx2, i, hx3⟩)
        · exact .inl hx
        · exact .inr ⟨hx1, hx2, i, by rw [← hx3]; exact pcs_other hne⟩
      by_cases hne : m = n
      · subst hne
        show PhaseOK pk v g o m (w.phase m) _
        rw [hw] at hm' ⊢
        exact hm'
      · show PhaseOK pk v g o m (w.phase m) _
        cases hph : w.phase m <;> rw [hph] at hm' <;> simp only [PhaseOK] at hm' ⊢
        · exact hm'
        · exact ⟨ended _ hne hm'.1, hm'.2⟩
        · exact ⟨ended _ hne hm'.1, hm'.2⟩
        · exact ⟨ended _ hne hm'.1, hm'.2.1, hG.dirs _ hm'.2.2⟩
        · exact ended _ hne hm'

/-- the folder for a link is made -/
theorem linv_make (h : Start env build pr pk v g o fetch tar fs) (hI : LInv env pk v g o fetch tar fs w) {n d : Nat} (hn : n < g.nodes.length)
    (hd : d ∈ depsOf g n) (hw : w.phase n ≠ .waiting) :
    ∃ c fs', Tar.mkdirp w.cache w.runs.fs (o.root ++ nmWord :: (entryFor v g n d).dropLast) = some (c, fs') ∧
      fs'.dirs (o.root ++ nmWord :: (entryFor v g n d).dropLast) = true ∧
      LInv env pk v g o fetch tar fs { w with runs := { w.runs with fs := fs' }, cache := c } := by
  have hs := src_index hn
  have hk := dep_pkg h.tree hd
  obtain ⟨⟨c, fs'⟩, hm⟩ := Tar.mkdirp_works (c := w.cache) (fs := w.runs.fs) (p := o.root ++ nmWord :: (entryFor v g n d).dropLast) (by simp)
    (fun q hq => no_file_link h hI.fine.inv hs hk (hq.trans (rel_prefix.2 (List.dropLast_prefix _)))) hI.cached
    (hI.known n d hs hd _ (entry_dropLast h.tree hk) (List.prefix_refl _))
  refine ⟨c, fs', hm, ?_⟩
  obtain ⟨h1, h2, h3, h4, h5⟩ := Tar.mkdirp_houses hm hI.cached
  obtain ⟨k1, k2, k3⟩ := Tar.mkdirp_new hm
  obtain ⟨D, rfl⟩ := Tar.mkdirp_eq hm
  have hnew : ∀ m j, jobsFor o v g fetch m = some j → ∀ q, Tar.Own j q → q ≠ j.dir → D q = true → w.runs.fs.dirs q = true := by
    intro m j hj q hoq hne hq
    rcases k3 q hq with hx | ⟨hx, _⟩
    · exact hx
    · exfalso
      obtain ⟨hm', _, hdir⟩ := jobsFor_some (tar := tar) hj
      rcases rel_cases hx with hy | ⟨a, ha, rfl, hy⟩
      · have h1 := (hoq.1.trans hy).length_le
        rw [hdir] at h1
        simp only [List.length_append, List.length_cons, List.length_nil] at h1
        have : (home v g m).length ≠ 0 := fun hz => home_ne_nil v g m (List.length_eq_zero_iff.1 hz)
        omega
      · obtain ⟨rfl, rfl⟩ := own_entry h.tree hj hs hk (hy.trans (List.dropLast_prefix _)) hoq
        exact hne hdir.symm
  refine ⟨h2, Tar.fine_dirs hI.fine h1 hnew, Tar.housed_dirs hI.housed h1 h5, fun q hq => ?_, hI.links, fun p t ht => h1 _ (hI.linked p t ht), h3,
    k1 _ hI.top, fun i k hi hk' q hq1 hq2 hq => ?_, fun m hm' => ?_⟩
  · rcases k3 q hq with hx | ⟨hx, _⟩
    · exact hI.sprung q hx
    · exact .inr (.inr ⟨n, d, hs, hd, hw, hx⟩)
  · rcases k3 _ hq with hx | ⟨_, hx⟩
    · exact k1 _ (hI.known i k hi hk' q hq1 hq2 hx)
    · exact hx
  · have := hI.phase m hm'
    show PhaseOK pk v g o m (w.phase m) _
    cases hph : w.phase m <;> rw [hph] at this <;> simp only [PhaseOK] at this ⊢
    · exact this
    · exact this
    · exact this
    · exact ⟨this.1, this.2.1, h1 _ this.2.2⟩
    · exact this

theorem past_linking {x : Option (Bool × Bool)} {deps pre t : List Nat} (h : deps = pre ++ t) : past (.linking x t) deps = pre := by
  subst h; exact past_eq

theorem past_making {x : Option (Bool × Bool)} {deps pre t : List Nat} {d : Nat} (h : deps = pre ++ d :: t) : past (.making x d t) deps = pre := by
  subst h; exact past_eq (t := d :: t)

theorem past_placing {x : Option (Bool × Bool)} {deps pre t : List Nat} {d : Nat} (h : deps = pre ++ d :: t) : past (.placing x d t) deps = pre := by
  subst h; exact past_eq (t := d :: t)

/-- the link is made -/
theorem linv_place (h : Start env build pr pk v g o fetch tar fs) (hI : LInv env pk v g o fetch tar fs w) {n d : Nat} (hn : n < g.nodes.length)
    {x : Option (Bool × Bool)} {t : List Nat} (hw : w.phase n = .placing x d t) :
    LInv env pk v g o fetch tar fs { w with
      links := Tar.upd w.links (entryFor v g n d) (some (diff (home v g d) (entryFor v g n d).dropLast))
      phase := Tar.upd w.phase n (.linking x t) } := by
  have hok := hI.phase n hn
  rw [hw] at hok
  obtain ⟨hend, ⟨pre, hd⟩, hdir⟩ := hok
  have hd' : depsOf g n = (pre ++ [d]) ++ t := by rw [hd]; simp
  have hmem : d ∈ depsOf g n := by rw [hd]; simp
  have hp1 : past (w.phase n) (depsOf g n) = pre := by rw [hw]; exact past_placing hd
  have begun : ∀ m, w.phase m ≠ .waiting → Tar.upd w.phase n (.linking x t) m ≠ .waiting := by
    intro m hm
    by_cases he : m = n
    · subst he; rw [Tar.upd_self]; exact fun h => (by cases h)
    · rw [Tar.upd_ne _ _ he]; exact hm
  have hlook : w.links (entryFor v g n d) = none := by
    have := look_none h hI hn hd hp1
    unfold LRun.look at this
    split at this
    · cases this
    · assumption
  refine ⟨hI.fine, hI.housed, fun q hq => ?_, fun p t' => ?_, fun p t' ht => ?_, hI.cached, hI.top, hI.known, fun m hm => ?_⟩
  · rcases hI.sprung q hq with hx | ⟨m, j, h1, h2, h3⟩ | ⟨i, k, h1, h2, h3, h4⟩
    · exact .inl hx
    · exact .inr (.inl ⟨m, j, h1, begun m h2, h3⟩)
    · exact .inr (.inr ⟨i, k, h1, h2, begun i h3, h4⟩)
  · show Tar.upd w.links _ _ p = some t' ↔ ∃ i k, Src g i ∧ k ∈ past (Tar.upd w.phase n (.linking x t) i) (depsOf g i) ∧ _ ∧ _
    by_cases hpe : p = entryFor v g n d
    · subst hpe
      rw [Tar.upd_self]
      constructor
      · intro ht
        refine ⟨n, d, src_index hn, ?_, rfl, (Option.some.inj ht).symm⟩
        rw [Tar.upd_self, past_linking hd']
        simp
      · rintro ⟨i, k, hi, hk, he, rfl⟩
        obtain ⟨rfl, rfl⟩ := entry_inj h.tree (src_index hn) hi hmem (past_sub hk) he
        rfl
    · rw [Tar.upd_ne _ _ hpe, hI.links p t']
      constructor
      · rintro ⟨i, k, hi, hk, he, ht⟩
        refine ⟨i, k, hi, ?_, he, ht⟩
        by_cases hin : i = n
        · subst hin
          rw [Tar.upd_self, past_linking hd']
          rw [hp1] at hk
          exact List.mem_append_left _ hk
        · rw [Tar.upd_ne _ _ hin]; exact hk
      · rintro ⟨i, k, hi, hk, he, ht⟩
        refine ⟨i, k, hi, ?_, he, ht⟩
        by_cases hin : i = n
        · subst hin
          rw [Tar.upd_self, past_linking hd'] at hk
          rw [hp1]
          rcases List.mem_append.1 hk with hk | hk
          · exact hk
          · rw [List.mem_singleton] at hk
            subst hk
            exact absurd he hpe
        · rw [Tar.upd_ne _ _ hin] at hk; exact hk
  · have ht : Tar.upd w.links (entryFor v g n d) (some (diff (home v g d) (entryFor v g n d).dropLast)) p = some t' := ht
    by_cases hpe : p = entryFor v g n d
    · subst hpe; exact hdir
    · rw [Tar.upd_ne _ _ hpe] at ht
      exact hI.linked p t' ht
  · show PhaseOK pk v g o m (Tar.upd w.phase n (.linking x t) m) _
    by_cases he : m = n
    · subst he
      rw [Tar.upd_self]
      exact ⟨hend, pre ++ [d], hd'⟩
    · rw [Tar.upd_ne _ _ he]
      exact hI.phase m hm

/-- the manifest of an extracted package can be read -/
theorem reads (h : Start env build pr pk v g o fetch tar fs) (hI : LInv env pk v g o fetch tar fs w) {n : Nat} {j : Tar.Job}
    (hj : jobsFor o v g fetch n = some j) {i : Tar.Integrity} (hd : w.runs.pcs n = .done i) :
    ((w.runs.fs.files (j.dir ++ [Tar.kPackageJson])).bind fun i => build (w.runs.fs.content i)) = some (whatFor pk g n) := by
  obtain ⟨⟨h0, _⟩, ⟨nd, hn, ht⟩, _⟩ := jobsFor_some (tar := tar) hj
  obtain ⟨f, hf, hr, hp, hb⟩ := h.built n nd h0 hn
  rw [← ht] at hf
  have hpc := hI.fine.inv.pc n j hj
  rw [hd] at hpc
  have hplace : Tar.place j.dir f = j.dir ++ [Tar.kPackageJson] := by
    obtain ⟨r, h1, h2⟩ := tail_names ((ready_of h).plain n j hj) hf hr j.dir
    rw [h1] at hp
    rw [h2, show r = [Tar.kPackageJson] from map_normal_inj hp]
  obtain ⟨k, hk⟩ := Option.isSome_iff_exists.1 (hpc f hf hr)
  have hx := hI.fine.inv.right n j hj f hf hr k hk
  rw [hplace] at hk
  rw [hk]
  simp only [Option.bind_some]
  rw [h.reading _ _ hx, hb]
  unfold whatFor
  rw [hn]

/-- one step -/
theorem linv_step (ho : ∀ f, (env.ord f).Perm f) (hcol : Tar.NoCol env) (h : Start env build pr pk v g o fetch tar fs)
    (hI : LInv env pk v g o fetch tar fs w) (n : Nat) : LInv env pk v g o fetch tar fs (w.step env build o v g fetch n) := by
  unfold LRun.step
  split
  · rename_i hn
    have hok := hI.phase n hn
    cases hw : w.phase n with
    | waiting =>
      simp only
      cases hj : jobsFor o v g fetch n with
      | none =>
        have h0 : n = 0 := by
          by_contra h0
          obtain ⟨j, hj'⟩ := jobsFor_of (o := o) (v := v) (fetch := fetch) (g := g) (i := n) ⟨h0, _, List.getElem?_eq_getElem hn⟩
          rw [hj] at hj'; cases hj'
        refine linv_phase hI ?_ (fun h => (by cases h)) ⟨.inl ⟨h0, rfl⟩, [], rfl⟩
        rw [hw]
        exact past_linking (pre := []) rfl
      | some j =>
        simp only
        rw [not_taken h hI hj hw]
        obtain ⟨⟨h0, _⟩, _, _⟩ := jobsFor_some (tar := tar) hj
        have h1 := linv_phase (ph := .extracting) hI (by rw [hw]; rfl) (fun h => (by cases h)) h0
        exact linv_runs ho hcol h h1 (Tar.upd_self _ _ _)
    | extracting =>
      simp only
      rw [hw] at hok
      cases hj : jobsFor o v g fetch n with
      | none => exact hI
      | some j =>
        simp only
        have hpc := hI.fine.pc n j hj
        cases hx : w.runs.pcs n with
        | failed => rw [hx] at hpc; exact hpc.elim
        | done i =>
          simp only [reads h hI hj hx]
          refine linv_phase hI ?_ (fun h => (by cases h)) ⟨.inr ⟨hok, rfl, i, hx⟩, [], rfl⟩
          rw [hw]
          exact past_linking (pre := []) rfl
        | _ => exact linv_runs ho hcol h hI hw
    | linking x t =>
      rw [hw] at hok
      obtain ⟨hend, pre, hd⟩ := hok
      cases t with
      | nil =>
        simp only
        refine linv_phase hI ?_ (fun h => (by cases h)) hend
        rw [hw, past_linking hd, List.append_nil] at *
        exact hd
      | cons d r =>
        have hl := look_none h hI hn hd (by rw [hw]; exact past_linking hd)
        have he : existsAt v (w.look o) (entryFor v g n d) = false := by unfold existsAt; rw [hl]
        simp only [he]
        refine linv_phase hI ?_ (fun h => (by cases h)) ⟨hend, pre, hd⟩
        rw [hw, past_linking hd, past_making hd]
    | making x d r =>
      rw [hw] at hok
      obtain ⟨hend, pre, hd⟩ := hok
      obtain ⟨c, fs', hm, hdir, hI'⟩ := linv_make h hI hn (d := d) (by rw [hd]; simp) (by rw [hw]; exact fun h => (by cases h))
      simp only [hm]
      refine linv_phase hI' ?_ (fun h => (by cases h)) ⟨hend, ⟨pre, hd⟩, hdir⟩
      show _ = past (w.phase n) _
      rw [hw, past_placing hd, past_making hd]
    | placing x d r =>
      have hok' := hok
      rw [hw] at hok
      obtain ⟨hend, ⟨pre, hd⟩, hdir⟩ := hok
      have hl := look_none h hI hn hd (by rw [hw]; exact past_placing hd)
      simp only [hl, hdir]
      exact linv_place h hI hn hw
    | finished x => exact hI
    | failed => rw [hw] at hok; exact hok.elim
  · exact hI

theorem linv_run (ho : ∀ f, (env.ord f).Perm f) (hcol : Tar.NoCol env) (h : Start env build pr pk v g o fetch tar fs)
    (hI : LInv env pk v g o fetch tar fs w) (sched : List Nat) : LInv env pk v g o fetch tar fs (w.run env build o v g fetch sched) := by
  induction sched generalizing w with
  | nil => exact hI
  | cons n r ih => exact ih (linv_step ho hcol h hI n)

/-- what is on disk when all packages are done -/
theorem exact_of (h : Start env build pr pk v g o fetch tar fs) (hI : LInv env pk v g o fetch tar fs w)
    (hall : ∀ n, n < g.nodes.length → ∃ x, w.phase n = .finished x) : Exact pk v g (seen pr o.root w.runs.fs w.links) := by
  have hR := ready_of h
  have hF := hI.fine
  have hH := hI.housed
  have hcl := hH.closed h.bare.closed
  have hg := h.tree
  have ended : ∀ {i}, IsPkg g i → ∃ x, w.runs.pcs i = .done x := by
    intro i hi
    obtain ⟨x, hx⟩ := hall i (lt_of_pkg hi)
    have := hI.phase i (lt_of_pkg hi)
    rw [hx] at this
    rcases this with ⟨h0, _⟩ | ⟨_, _, h1⟩
    · exact absurd h0 hi.1
    · exact h1
  -- a file of a package
  have file : ∀ {i j nd}, jobsFor o v g fetch i = some j → g.nodes[i]? = some nd →
      ∀ {f : Tar.Entry} {r : Loc}, f ∈ (env.untar (tar nd.pkg)).1 → f.regular = true → (RPath.components f.header).tail = r.map .normal →
      Tar.place j.dir f = o.root ++ nmWord :: (home v g i ++ r) ∧
      ∃ k, w.runs.fs.files (o.root ++ nmWord :: (home v g i ++ r)) = some k ∧ pr (w.runs.fs.content k) = pr f.content := by
    intro i j nd hj hi f r hf hr ht
    obtain ⟨hpi, ⟨nd', hi', htar⟩, hdir⟩ := jobsFor_some (tar := tar) hj
    rw [hi] at hi'; cases hi'
    rw [← htar] at hf
    have hpl : Tar.place j.dir f = o.root ++ nmWord :: (home v g i ++ r) := by
      obtain ⟨r', h1, h2⟩ := tail_names (hR.plain i j hj) hf hr j.dir
      rw [ht] at h1
      rw [h2, hdir, map_normal_inj h1]
      simp
    obtain ⟨x, hd⟩ := ended hpi
    have hpc := hF.inv.pc i j hj
    rw [hd] at hpc
    obtain ⟨k, hk⟩ := Option.isSome_iff_exists.1 (hpc f hf hr)
    have hrt := hF.inv.right i j hj f hf hr k hk
    rw [hpl] at hk
    exact ⟨hpl, k, hk, h.sight _ _ hrt⟩
  -- the places above a file
  have above : ∀ {a r s : Loc}, s ≠ [] → o.root ++ nmWord :: (a ++ r) <+: (o.root ++ nmWord :: (a ++ (r ++ s))).dropLast := by
    intro a r s hs
    refine Tar.prefix_dropLast ⟨s, by simp⟩ ?_
    intro he
    have := congrArg List.length he
    simp only [List.length_append, List.length_cons] at this
    have : s.length ≠ 0 := fun hz => hs (List.length_eq_zero_iff.1 hz)
    omega
  -- the folders of a package
  have dirOf : ∀ {i j nd}, jobsFor o v g fetch i = some j → g.nodes[i]? = some nd →
      ∀ {r : Loc}, pk.content nd.pkg r = some .dir → w.runs.fs.dirs (o.root ++ nmWord :: (home v g i ++ r)) = true ∧
        w.runs.fs.files (o.root ++ nmWord :: (home v g i ++ r)) = none ∧ Tar.Own j (o.root ++ nmWord :: (home v g i ++ r)) := by
    intro i j nd hj hi r hc
    obtain ⟨hpi, ⟨nd', hi', htar⟩, hdir⟩ := jobsFor_some (tar := tar) hj
    rw [hi] at hi'; cases hi'
    rcases (h.packed i nd hpi.1 hi r .dir).1 hc with ⟨_, _, _, _, hx⟩ | ⟨_, f, hf, hr, s, hs', ht⟩
    · cases hx
    · obtain ⟨hpl, k, hk, _⟩ := file hj hi hf hr ht
      have hpar : w.runs.fs.dirs (o.root ++ nmWord :: (home v g i ++ (r ++ s))).dropLast = true := by
        rcases hH.files _ (by rw [hk]; simp) with hx | hx
        · exact absurd (h.bare.empty _ (by simp [home])).1 hx
        · exact hx
      rw [← htar] at hf
      have hP := hR.place hj
      have hpre : o.root ++ nmWord :: (home v g i ++ r) <+: (Tar.place j.dir f).dropLast := by rw [hpl]; exact above hs'
      have hown : Tar.Own j (o.root ++ nmWord :: (home v g i ++ r)) := by
        refine Tar.own_between (hP.parent hf hr).1 hpre ?_
        rw [hdir]
        exact ⟨r, by simp⟩
      refine ⟨hcl _ hpar _ (above hs'), Tar.no_file hR hF.inv hj (.inl ⟨hown, fun e' he' hr' hx => ?_⟩), hown⟩
      exact hP.not_within he' hr' hf hr (by rw [hx]; exact hpre)
  -- links
  have linked : ∀ {p t}, w.links p = some t → ∃ i k, Src g i ∧ k ∈ depsOf g i ∧ p = entryFor v g i k ∧ t = diff (home v g k) p.dropLast := by
    intro p t ht
    obtain ⟨i, k, h1, h2, h3, h4⟩ := (hI.links p t).1 ht
    exact ⟨i, k, h1, past_sub h2, h3, h4⟩
  have noLink : ∀ {p}, (∀ i k, Src g i → k ∈ depsOf g i → p ≠ entryFor v g i k) → w.links p = none := by
    intro p hp
    cases hx : w.links p with
    | none => rfl
    | some t =>
      obtain ⟨i, k, h1, h2, h3, _⟩ := linked hx
      exact absurd h3 (hp i k h1 h2)
  have noLinkOwn : ∀ {m j} {r : Loc}, jobsFor o v g fetch m = some j → Tar.Own j (o.root ++ nmWord :: (home v g m ++ r)) →
      w.links (home v g m ++ r) = none := by
    intro m j r hj hown
    refine noLink fun i k hi hk he => ?_
    obtain ⟨hm, _, _⟩ := jobsFor_some (tar := tar) hj
    obtain ⟨_, h2⟩ := own_entry hg hj hi (dep_pkg hg hk) (by rw [he]) hown
    exact entry_ne_home hg hi (dep_pkg hg hk) hm (by rw [← he, h2])
  have edge_of : ∀ {i k}, Src g i → k ∈ depsOf g i → ∃ a ∈ g.edges, a.src = i ∧ a.dst = k ∧ ∃ nd, g.nodes[a.src]? = some nd := by
    intro i k hi hk
    unfold depsOf at hk
    obtain ⟨a, ha, rfl⟩ := List.mem_map.1 hk
    obtain ⟨h1, h2⟩ := List.mem_filter.1 ha
    exact ⟨a, h1, of_decide_eq_true h2, rfl, hg.sources a h1⟩
  have of_edge : ∀ {a}, a ∈ g.edges → (∃ nd, g.nodes[a.src]? = some nd) → Src g a.src ∧ a.src < g.nodes.length ∧ a.dst ∈ depsOf g a.src := by
    intro a ha ⟨nd, hn⟩
    have hlt : a.src < g.nodes.length := by
      by_contra hge
      rw [List.getElem?_eq_none (by omega)] at hn
      cases hn
    exact ⟨src_index hlt, hlt, List.mem_map.2 ⟨a, List.mem_filter.2 ⟨ha, by simp⟩, rfl⟩⟩
  intro p e
  unfold seen Hoisted.seen
  constructor
  · intro hse
    cases hlp : w.links p with
    | some t =>
      rw [hlp] at hse
      simp only [Option.some.injEq] at hse
      obtain ⟨i, k, h1, h2, h3, h4⟩ := linked hlp
      obtain ⟨a, ha, rfl, rfl, hn⟩ := edge_of h1 h2
      exact .inr (.inr ⟨a, ha, hn, .inl ⟨h3, by rw [← hse, h4]⟩⟩)
    | none =>
    rw [hlp] at hse
    simp only at hse
    cases hfile : w.runs.fs.files (o.root ++ nmWord :: p) with
    | some k =>
      rw [hfile] at hse
      simp only [Option.some.injEq] at hse
      by_cases hex : ∃ n j, jobsFor o v g fetch n = some j ∧ ∃ f ∈ (env.untar (tarFor g tar n)).1, f.regular = true ∧
          Tar.place j.dir f = o.root ++ nmWord :: p
      · obtain ⟨n, j, hj, f, hf, hr, hpl⟩ := hex
        obtain ⟨hpi, ⟨nd, hi, htar⟩, hdir⟩ := jobsFor_some (tar := tar) hj
        obtain ⟨r, h1, h2⟩ := tail_names (hR.plain n j hj) hf hr j.dir
        have hrt := hF.inv.right n j hj f hf hr k (by rw [hpl]; exact hfile)
        rw [htar] at hf
        refine .inr (.inl ⟨n, nd, hpi.1, hi, .inl ⟨r, ?_, ?_⟩⟩)
        · rw [h2, hdir] at hpl
          simpa using hpl.symm
        · rw [← hse]
          exact (h.packed n nd hpi.1 hi r _).2 (.inl ⟨f, hf, hr, h1, by rw [h.sight _ _ hrt]⟩)
      · exfalso
        have := hF.inv.files (o.root ++ nmWord :: p) (fun n j hj f hf hr hpl => hex ⟨n, j, hj, f, hf, hr, hpl⟩)
        rw [hfile] at this
        by_cases hp0 : p = []
        · subst hp0
          rw [h.bare.above _ (List.prefix_refl _)] at this
          cases this
        · rw [(h.bare.empty p hp0).1] at this
          cases this
    | none =>
      rw [hfile] at hse
      simp only at hse
      split at hse
      · rename_i hdir0
        simp only [Option.some.injEq] at hse
        subst hse
        rcases hI.sprung _ hdir0 with hx | ⟨n, j, hj, _, hx⟩ | ⟨i, k, hi, hk, _, hx⟩
        · left
          refine ⟨?_, rfl⟩
          by_contra hp0
          rw [(h.bare.empty p hp0).2] at hx
          cases hx
        · obtain ⟨hpi, ⟨nd, hi, htar⟩, hdir⟩ := jobsFor_some (tar := tar) hj
          right; left
          refine ⟨n, nd, hpi.1, hi, ?_⟩
          rcases hx with hx | ⟨f, hf, hr, hx⟩
          · rw [hdir, rel_prefix] at hx
            exact .inr ⟨rfl, hx⟩
          · have hP := (hR.place hj).parent hf hr
            rcases List.prefix_or_prefix_of_prefix hx hP.1.1 with hy | hy
            · rw [hdir, rel_prefix] at hy
              exact .inr ⟨rfl, hy⟩
            · left
              obtain ⟨r, h1, h2⟩ := tail_names (hR.plain n j hj) hf hr j.dir
              obtain ⟨a, ha⟩ := hy
              obtain ⟨b, hb⟩ := hx.trans (List.dropLast_prefix _)
              rw [← ha, h2, List.append_assoc] at hb
              have hb' := List.append_cancel_left hb
              have hbne : b ≠ [] := by
                intro hbn
                subst hbn
                have hlen := List.IsPrefix.length_le hx
                rw [h2, ← ha, ← hb'] at hlen
                rw [List.length_dropLast] at hlen
                simp only [List.length_append, List.append_nil] at hlen
                have : j.dir.length ≠ 0 := fun hz => hR.below n j hj (List.length_eq_zero_iff.1 hz)
                omega
              rw [htar] at hf
              refine ⟨a, ?_, ?_⟩
              · rw [hdir] at ha
                simpa using ha.symm
              · exact (h.packed n nd hpi.1 hi a _).2 (.inr ⟨rfl, f, hf, hr, b, hbne, by rw [h1, hb']⟩)
        · obtain ⟨a, ha, rfl, rfl, hn⟩ := edge_of hi hk
          exact .inr (.inr ⟨a, ha, hn, .inr ⟨rfl, rel_prefix.1 hx⟩⟩)
      · cases hse
  · rintro (⟨rfl, rfl⟩ | ⟨i, nd, h0, hi, hp⟩ | ⟨a, ha, hn, hp⟩)
    · have hl : w.links [] = none := noLink fun i k _ hk he => entry_ne_nil hg (dep_pkg hg hk) he.symm
      have hf : w.runs.fs.files (o.root ++ [nmWord]) = none := by
        rw [hF.inv.files]
        · exact h.bare.above _ (List.prefix_refl _)
        · intro n j hj f hf hr hx
          have := ((hR.place hj).own hf hr).1.1
          rw [hx] at this
          obtain ⟨_, _, hd⟩ := jobsFor_some (tar := tar) hj
          have hlen := List.IsPrefix.length_le this
          rw [hd] at hlen
          have : (home v g n).length ≠ 0 := fun hz => home_ne_nil v g n (List.length_eq_zero_iff.1 hz)
          simp only [List.length_append, List.length_cons, List.length_nil] at hlen
          omega
      rw [hl, hf, hH.up _ h.bare.modules]
      rfl
    · have hpi : IsPkg g i := ⟨h0, nd, hi⟩
      obtain ⟨j, hj⟩ := jobsFor_of (o := o) (v := v) (fetch := fetch) hpi
      obtain ⟨_, ⟨nd', hi', htar⟩, hdir⟩ := jobsFor_some (tar := tar) hj
      rw [hi] at hi'; cases hi'
      rcases hp with ⟨r, rfl, hc⟩ | ⟨rfl, hp⟩
      · rcases (h.packed i nd h0 hi r e).1 hc with ⟨f, hf, hr, ht, rfl⟩ | ⟨rfl, _⟩
        · obtain ⟨hpl, k, hk, hpr⟩ := file hj hi hf hr ht
          rw [← htar] at hf
          have hown := ((hR.place hj).own hf hr).1
          rw [hpl] at hown
          rw [noLinkOwn hj hown, hk]
          simp only [hpr]
        · obtain ⟨h1, h2, h3⟩ := dirOf hj hi hc
          rw [noLinkOwn hj h3, h2, h1]
          rfl
      · have hl : w.links p = none := noLink fun i' k hi' hk he =>
          entry_ne_home hg hi' (dep_pkg hg hk) hpi (by rw [← he]; exact hp)
        have hd := (dirOf hj hi (hg.dirs i nd h0 hi)).1
        rw [List.append_nil] at hd
        rw [hl, Tar.no_file hR hF.inv hj (.inr (by rw [hdir, rel_prefix]; exact hp)), hcl _ hd _ (rel_prefix.2 hp)]
        rfl
    · obtain ⟨hs, hlt, hk⟩ := of_edge ha hn
      obtain ⟨x, hx⟩ := hall _ hlt
      have hlink : w.links (entryFor v g a.src a.dst) = some (diff (home v g a.dst) (entryFor v g a.src a.dst).dropLast) :=
        (hI.links _ _).2 ⟨a.src, a.dst, hs, by rw [hx]; exact hk, rfl, rfl⟩
      rcases hp with ⟨rfl, rfl⟩ | ⟨rfl, hp⟩
      · rw [hlink]
      · have hl : w.links p = none := noLink fun i' k hi' hk' he =>
          entry_in_entry hg hi' hs (dep_pkg hg hk') (dep_pkg hg hk) (by rw [← he]; exact hp)
        rw [hl, no_file_link h hF.inv hs (dep_pkg hg hk) (rel_prefix.2 (hp.trans (List.dropLast_prefix _))),
          hcl _ (hI.linked _ _ hlink) _ (rel_prefix.2 hp)]
        rfl

end

end Iso
end Oro
