import Verif.Model.IsoBinModes
import Verif.Props.IsolatedBins
import Verif.Props.BinModes
/-
C99, the isolated linker: commands can be executed.
-/

set_option linter.unusedSectionVars false

namespace Oro
namespace Iso
open Hoisted (Bytes Entry Tree Pkgs Disk storeName binName wiped setExec without)
variable {P S V I : Type}

section
variable {pk : Pkgs P} {v : Env} {g : Graph Str P S} {t : Tree} {root : Loc}

/-- where `from` leads -/
theorem locate_dep (hg : Installable pk v g) (ht : Installed pk v g t) {s l : Nat} (hs : Src g s) {b : Str} {x : Loc} (hb : FolderName b) (h1 : '/' ∉ b)
    (h2 : b ≠ storeName) (h3 : b ≠ binName) (h4 : x ≠ []) (h5 : x.head? ≠ some nmWord) (hl : l ∈ depsOf g s) (hlb : nameOf g l = b) {nd : Node Str P S}
    (hn : g.nodes[l]? = some nd) (hc : pk.content nd.pkg x ≠ none) :
    locate v t (nm v g s) (b :: x) = some (home v g l ++ x) ∧ t (home v g l ++ x) = pk.content nd.pkg x := by
  obtain ⟨a1, a2⟩ := at_nm hg ht hs hb h1 h2 h3
  obtain ⟨y, r, rfl⟩ := List.exists_cons_of_ne_nil h4
  have l0 := (dep_pkg hg hl).1
  have hat : ∀ q, q <+: y :: r → q ≠ [] → t (home v g l ++ q) = pk.content nd.pkg q := by
    intro q hq hq0
    refine at_home hg ht l0 hn hq0 ?_
    rw [head_of_prefix hq hq0 rfl]
    exact h5
  refine ⟨?_, hat _ List.prefix_rfl (by simp)⟩
  have e : locate v t (nm v g s) (b :: y :: r) = locate v t (home v g l) (y :: r) := by
    simp only [locate, a1 l hl hlb]
    rw [resolve_diff hg (dep_pkg hg hl), Option.bind_some, if_pos (home_dir hg ht (dep_pkg hg hl) List.prefix_rfl)]
  rw [e, locate_down]
  rintro q ⟨z, hz⟩ hq0 hq1
  rw [hat q ⟨z, hz⟩ hq0]
  refine hg.folders l nd q z (dep_pkg hg hl).1 hn ?_ (by rw [hz]; exact hc)
  rintro rfl
  rw [List.append_nil] at hz
  exact hq1 hz

/-- `p` is where a dependency of a package has the file of a command (of that name) -/
def IsTarget (pk : Pkgs P) (v : Env) (g : Graph Str P S) (root : Loc) (done : List (Nat × Str × Loc)) (p : Loc) : Prop :=
  ∃ s b x l nd, (s, b, x) ∈ done ∧ l ∈ depsOf g s ∧ nameOf g l = b ∧ g.nodes[l]? = some nd ∧ pk.content nd.pkg x ≠ none ∧
    p = root ++ nmWord :: (home v g l ++ x)

/-- the files while commands are linked -/
structure Moded (pk : Pkgs P) (v : Env) (g : Graph Str P S) (root : Loc) (fs : Tar.FS) (done : List (Nat × Str × Loc)) (f : Tar.FS) : Prop where
  keep : ∀ p, (∀ r, p = root ++ nmWord :: r → ¬ InBin r) → f.files p = fs.files p
  less : ∀ p i, f.files p = some i → fs.files p = some i
  mode : ∀ i, f.mode i = fs.mode i ∨ (f.mode i = 0o755 ∧ ∃ p, IsTarget pk v g root done p ∧ fs.files p = some i)
  exec : ∀ p, IsTarget pk v g root done p → ∀ m, Tar.Bits f p m → m = 0o755
  content : f.content = fs.content
  store : f.store = fs.store
  index : f.index = fs.index

theorem IsTarget.mono {done : List (Nat × Str × Loc)} {c : Nat × Str × Loc} {p : Loc} (h : IsTarget pk v g root done p) :
    IsTarget pk v g root (done ++ [c]) p := by
  obtain ⟨s, b, x, l, nd, h1, h2⟩ := h
  exact ⟨s, b, x, l, nd, by simp [h1], h2⟩

theorem mode_one (hg : Installable pk v g) {done : List (Nat × Str × Loc)} {z : Tree × List Loc} {fs f : Tar.FS} (hz : Linked pk v g done z)
    (hf : Moded pk v g root fs done f) {s : Nat} (hs : Src g s)
    {b : Str} {x : Loc} (hb : FolderName b) (h1 : '/' ∉ b) (h2 : b ≠ storeName) (h3 : b ≠ binName) (h4 : x ≠ []) (h5 : x.head? ≠ some nmWord) :
    Moded pk v g root fs (done ++ [(s, b, x)]) (binFS v g root z.1 f s (b, x)) := by
  by_cases hsv : Serves pk g s b x
  · obtain ⟨l, hl, hlb, nd, hn, hc⟩ := hsv
    obtain ⟨e1, e2⟩ := locate_dep hg hz.inst hs hb h1 h2 h3 h4 h5 hl hlb hn hc
    have htar : IsTarget pk v g root (done ++ [(s, b, x)]) (root ++ nmWord :: (home v g l ++ x)) := ⟨s, b, x, l, nd, by simp, hl, hlb, hn, hc, rfl⟩
    have e : binFS v g root z.1 f s (b, x) =
        setExec (without root (fun p => (nm v g s ++ [binName, b]).isPrefixOf p) f) (root ++ nmWord :: (home v g l ++ x)) := by
      unfold binFS
      dsimp only
      rw [e1]
      dsimp only
      rw [if_neg]
      rw [e2]
      cases hx : pk.content nd.pkg x with
      | none => exact absurd hx hc
      | some _ => simp
    rw [e]
    have hw : ∀ p i, (without root (fun p => (nm v g s ++ [binName, b]).isPrefixOf p) f).files p = some i → f.files p = some i := by
      intro p i h
      simp only [without] at h
      split at h
      · cases h
      · exact h
    refine ⟨fun p hp => ?_, fun p i h => ?_, fun i => ?_, fun p hp m hm => ?_, ?_, ?_, ?_⟩
    · rw [Hoisted.setExec_files, ← hf.keep p hp]
      simp only [without]
      rw [if_neg]
      unfold Hoisted.under
      split
      · rename_i r hr
        rw [Hoisted.below_eq] at hr
        intro hx
        obtain ⟨w, rfl⟩ := List.isPrefixOf_iff_prefix.1 hx
        refine hp (nm v g s ++ [binName, b] ++ w) (by rw [hr]; simp) ?_
        have := inBin_nm (v := v) hg hs (b :: w)
        simpa using this
      · simp
    · rw [Hoisted.setExec_files] at h
      exact hf.less p i (hw p i h)
    · unfold setExec
      split
      · rename_i j hj
        dsimp only
        by_cases hi : i = j
        · subst hi
          rw [Tar.upd_self]
          exact .inr ⟨rfl, _, htar, hf.less _ _ (hw _ _ hj)⟩
        · rw [Tar.upd_ne _ _ hi]
          rcases hf.mode i with h | ⟨h, p, hp, hpi⟩
          · exact .inl h
          · exact .inr ⟨h, p, hp.mono, hpi⟩
      · rcases hf.mode i with h | ⟨h, p, hp, hpi⟩
        · exact .inl h
        · exact .inr ⟨h, p, hp.mono, hpi⟩
    · obtain ⟨s', b', x', l', nd', hm', hl', hlb', hn', hc', rfl⟩ := hp
      rcases List.mem_append.1 hm' with hm' | hm'
      · rcases Hoisted.setExec_bits hm with hm | hm
        · exact hm
        · exact hf.exec _ ⟨s', b', x', l', nd', hm', hl', hlb', hn', hc', rfl⟩ m (Hoisted.without_bits hm)
      · rw [List.mem_singleton] at hm'
        cases hm'
        have := name_dep hg hl hl' (by rw [hlb, hlb'])
        subst this
        exact Hoisted.setExec_at hm
    · unfold setExec
      split <;> exact hf.content
    · unfold setExec
      split <;> exact hf.store
    · unfold setExec
      split <;> exact hf.index
  · have e : binFS v g root z.1 f s (b, x) = f := by
      have := mt (serves_iff hg hz.inst hs hb h1 h2 h3 h4 h5 (v := v)).1 hsv
      unfold binFS
      dsimp only
      split
      · rename_i q hq
        rw [hq, Option.bind_some, Bool.not_eq_false] at this
        rw [if_pos this]
      · rfl
    rw [e]
    refine ⟨hf.keep, hf.less, fun i => ?_, fun p hp m hm => ?_, hf.content, hf.store, hf.index⟩
    · rcases hf.mode i with h | ⟨h, p, hp, hpi⟩
      · exact .inl h
      · exact .inr ⟨h, p, hp.mono, hpi⟩
    · obtain ⟨s', b', x', l', nd', hm', hl', hlb', hn', hc', rfl⟩ := hp
      rcases List.mem_append.1 hm' with hm' | hm'
      · exact hf.exec _ ⟨s', b', x', l', nd', hm', hl', hlb', hn', hc', rfl⟩ m hm
      · rw [List.mem_singleton] at hm'
        cases hm'
        exact absurd ⟨l', hl', hlb', nd', hn', hc'⟩ hsv

theorem mode_all (hg : Installable pk v g) {fs : Tar.FS} : ∀ (l : List (Nat × Str × Loc)) (done : List (Nat × Str × Loc)) (z : Tree × List Loc) (f : Tar.FS),
    Linked pk v g done z → Moded pk v g root fs done f →
    (∀ c ∈ l, Src g c.1 ∧ FolderName c.2.1 ∧ '/' ∉ c.2.1 ∧ c.2.1 ≠ storeName ∧ c.2.1 ≠ binName ∧ c.2.2 ≠ [] ∧ c.2.2.head? ≠ some nmWord) →
    ∃ z' f', l.foldl (fun z c => z.bind fun z => linkBinFS v g root z c.1 c.2) (some (z, f)) = some (z', f') ∧
      l.foldl (fun z c => z.bind fun z => linkBin v g z c.1 c.2) (some z) = some z' ∧
      Linked pk v g (done ++ l) z' ∧ Moded pk v g root fs (done ++ l) f' := by
  intro l
  induction l with
  | nil => intro done z f hz hf _; exact ⟨z, f, rfl, rfl, by simpa using hz, by simpa using hf⟩
  | cons c l ih =>
    intro done z f hz hf hl
    obtain ⟨a1, a2, a3, a4, a5, a6, a7⟩ := hl c List.mem_cons_self
    obtain ⟨z', h1, h2⟩ := link_one hg hz a1 a2 a3 a4 a5 a6 a7
    have hf' := mode_one hg hz hf a1 a2 a3 a4 a5 a6 a7
    have h1' : linkBin v g z c.1 c.2 = some z' := h1
    obtain ⟨z'', f'', h3, h4, h5, h6⟩ := ih _ z' _ h2 hf' fun c' hc' => hl c' (List.mem_cons_of_mem _ hc')
    refine ⟨z'', f'', ?_, ?_, by simpa using h5, by simpa using h6⟩
    · rw [List.foldl_cons, Option.bind_some]
      unfold linkBinFS
      rw [h1', Option.map_some]
      exact h3
    · rw [List.foldl_cons, Option.bind_some, h1']
      exact h4

/-- the way to a dependency's folder -/
theorem opens_dep_dir (hg : Installable pk v g) (ht : Installed pk v g t) {s l : Nat} (hs : Src g s) (hl : l ∈ depsOf g s) {b : Str} (hlb : nameOf g l = b)
    (hb : FolderName b) (h1 : '/' ∉ b) (h2 : b ≠ storeName) (h3 : b ≠ binName) (h4 : b ≠ dotdot) {x : Loc} (h6 : x.head? ≠ some nmWord)
    (h7 : dotdot ∉ x) {nd : Node Str P S} (hn : g.nodes[l]? = some nd) (hc : pk.content nd.pkg x = some .dir) :
    Opens t (nm v g s) (b :: x) (home v g l ++ x) := by
  have hlp := dep_pkg hg hl
  obtain ⟨p1, p2⟩ := home_parts hg hlp (v := v)
  refine .link _ b _ _ _ h4 ((at_nm hg ht hs hb h1 h2 h3).1 l hl hlb) (diff_head p2) ?_
  obtain ⟨d, r, y, e1, e2, e3⟩ := diff_form (home v g l) (nm v g s)
  rw [e1, e3, List.append_assoc]
  refine opens_up (opens_down (p := r) (fun h => p1 (by rw [e2]; simp [h])) ?_ ?_) y
  · intro a ha _
    refine home_dir hg ht hlp ?_
    rw [e2]
    exact (List.prefix_append_right_inj d).2 ha
  · rw [← e2]
    have hat : ∀ q, q <+: x → q ≠ [] → t (home v g l ++ q) = pk.content nd.pkg q := by
      intro q hq hq0
      refine at_home hg ht hlp.1 hn hq0 ?_
      intro h
      apply h6
      obtain ⟨w, rfl⟩ := hq
      cases q with
      | nil => exact absurd rfl hq0
      | cons a q => simpa using h
    have hdir : ∀ a, a <+: x → a ≠ [] → t (home v g l ++ a) = some .dir := by
      intro a ha h0
      rw [hat a ha h0]
      obtain ⟨k, hk⟩ := ha
      by_cases hk0 : k = []
      · subst hk0
        rw [List.append_nil] at hk
        rw [hk, hc]
      · exact hg.folders l nd a k hlp.1 hn hk0 (by rw [hk, hc]; simp)
    have := opens_down (t := t) (d := home v g l) (p := x) (r := []) (q := home v g l ++ x) h7 hdir (.here _ ?_)
    · simpa using this
    · by_cases hx : x = []
      · subst hx
        rw [List.append_nil]
        exact home_dir hg ht hlp List.prefix_rfl
      · exact hdir x List.prefix_rfl hx

theorem opens_up_inv {d d' p q : Loc} {x : Str} (h : Opens t d' (dotdot :: p) q) (e : d' = d ++ [x]) : Opens t d p q := by
  cases h with
  | up d0 x0 _ _ h =>
    obtain ⟨rfl, _⟩ := List.append_inj' e rfl
    exact h
  | into _ _ _ _ h => exact absurd rfl h
  | file _ _ _ h => exact absurd rfl h
  | link _ _ _ _ _ h => exact absurd rfl h

theorem opens_into_inv {d p q : Loc} {x : Str} (h0 : x ≠ dotdot) (hd : t (d ++ [x]) = some .dir ∨ t (d ++ [x]) = none) (h : Opens t d (x :: p) q) :
    Opens t (d ++ [x]) p q := by
  cases h with
  | up => exact absurd rfl h0
  | into _ _ _ _ _ _ h => exact h
  | file _ _ _ _ h => rcases hd with hd | hd <;> rw [hd] at h <;> cases h
  | link _ _ _ _ _ _ h => rcases hd with hd | hd <;> rw [hd] at h <;> cases h

/-- what a package opens through its folder for commands -/
theorem bin_opens (hg : Installable pk v g) (hp : PlainCommands pk g) {done : List (Nat × Str × Loc)} {z : Tree × List Loc} (hz : Linked pk v g done z)
    (hdone : ∀ s b x, (s, b, x) ∈ done → ∃ i nd, i ∈ depsOf g s ∧ g.nodes[i]? = some nd ∧ (b, x) ∈ pk.bins nd.pkg) {s : Nat} (hs : Src g s) {b : Str} {q : Loc}
    {c : Bytes} (hop : Opens z.1 (nm v g s) [binName, b] q) (hq : z.1 q = some (.file c)) :
    ∃ x l nd, (s, b, x) ∈ done ∧ l ∈ depsOf g s ∧ nameOf g l = b ∧ g.nodes[l]? = some nd ∧ pk.content nd.pkg x = some (.file c) ∧ q = home v g l ++ x := by
  have hop := opens_into_inv (by decide) ((hz.dirs s hs).elim (fun h => .inr h.1) fun h => .inl h.1) hop
  have hin : InBin (nm v g s ++ [binName] ++ [b]) := by simpa using inBin_nm (v := v) hg hs [b]
  have hent : ∀ e, z.1 (nm v g s ++ [binName] ++ [b]) = some e → ∃ x, (s, b, x) ∈ done ∧ Serves pk g s b x ∧ e = .link (dotdot :: b :: x) := by
    intro e he
    obtain ⟨s', hs', ⟨h, _⟩ | ⟨b', x', h, hm, hr, rfl⟩⟩ := hz.only _ e hin he
    · exfalso
      obtain ⟨h4, _⟩ := List.append_inj' h rfl
      refine notBin_nm' hg hs' (v := v) ?_
      rw [← h4]
      simpa using inBin_nm (v := v) hg hs []
    · rw [show nm v g s' ++ [binName, b'] = (nm v g s' ++ [binName]) ++ [b'] by simp] at h
      obtain ⟨h3, h4⟩ := List.append_inj' h rfl
      have h3 := nm_inj hg hs hs' (List.append_cancel_right h3)
      cases h4
      subst h3
      exact ⟨x', hm, hr, rfl⟩
  generalize hD : nm v g s ++ [binName] = D at hop hent
  cases hop with
  | up d x _ _ h =>
    cases h with
    | here _ h => rw [hq] at h; cases h
  | into _ _ _ _ _ h _ => obtain ⟨x, _, _, h⟩ := hent _ h; cases h
  | file _ _ _ _ h => obtain ⟨x, _, _, h⟩ := hent _ h; cases h
  | link _ _ text _ _ h0 h _ h' =>
    obtain ⟨x, hm, ⟨l, hl, hlb, nd, hn, hc⟩, e⟩ := hent _ h
    cases e
    subst hD
    rw [List.append_nil] at h'
    have h' := opens_up_inv h' rfl
    obtain ⟨j, nj, _, hj, hjx⟩ := hdone s b x hm
    obtain ⟨a1, a2, a3, a4, a5⟩ := hp.name j nj b x hj hjx
    obtain ⟨b1, b2, b3⟩ := hp.file j nj b x hj hjx
    have hl0 := (dep_pkg hg hl).1
    have hat := at_home hg hz.inst hl0 hn b1 b2
    have key : q = home v g l ++ x := by
      cases hx : pk.content nd.pkg x with
      | none => exact absurd hx hc
      | some e =>
        cases e with
        | dir => exact opens_unique h' (opens_dep_dir hg hz.inst hs hl hlb a1 a2 a3 a4 a5 b2 b3 hn hx)
        | file c' => exact opens_unique h' (opens_dep hg hz.inst hs hl hlb a1 a2 a3 a4 a5 b1 b2 b3 hn hx)
        | link text => exact absurd hx (hg.noLinks l nd x text hl0 hn)
    refine ⟨x, l, nd, hm, hl, hlb, hn, ?_, key⟩
    rw [← hat, ← key, hq]

end

/-- C99, the isolated linker: after a first install the commands are linked as C35 says, and whatever a package (or the project) can open
through its folder for commands, and is a file, is there and everybody can read and execute it. -/
theorem C99_isolated (pk : Pkgs P) (v : Env) (g : Graph Str P S) (hg : Installable pk v g) (hp : PlainCommands pk g) (d : Disk V I) (hd : Fresh d)
    (order : List Nat) (ho : Order g order) (root : Loc) (fs : Tar.FS) :
    ∃ y z f, install pk v g order d = some y ∧ linkBinsFS pk v g root y.bins ((y.tree, y.cache), fs) = some (z, f) ∧ apply pk v g order d = some z ∧
      ∀ (s : Nat) (ns : Node Str P S) b q c, g.nodes[s]? = some ns → Opens z.1 (nm v g s) [binName, b] q → z.1 q = some (.file c) →
        (fs.files (root ++ nmWord :: q) ≠ none → Tar.Bits f (root ++ nmWord :: q) 0o755) ∧
        ∀ m, Tar.Bits f (root ++ nmWord :: q) m → m = 0o755 := by
  obtain ⟨y, hy, hL, hjobs, hc⟩ := fresh_ready pk v g hg hp d hd order ho
  have hM : Moded pk v g root fs [] fs := ⟨fun _ _ => rfl, fun _ _ h => h, fun _ => .inl rfl,
    fun p ⟨_, _, _, _, _, h, _⟩ => (by cases h), rfl, rfl, rfl⟩
  obtain ⟨z, f, h1, h2, h3, h4⟩ := mode_all (root := root) hg _ [] _ fs hL hM hc
  refine ⟨y, z, f, hy, h1, by unfold apply; rw [hy, Option.bind_some]; exact h2, ?_⟩
  intro s ns b q c hns hop hq
  obtain ⟨x, l, nd, e1, e2, e3, e4, e5, rfl⟩ := bin_opens hg hp h3 (fun s b x h => (hjobs s b x).1 h) (src_of hns) hop hq
  have hex := h4.exec (root ++ nmWord :: (home v g l ++ x)) ⟨s, b, x, l, nd, e1, e2, e3, e4, by rw [e5]; simp, rfl⟩
  refine ⟨fun hf => ?_, hex⟩
  obtain ⟨i, hi⟩ := Option.ne_none_iff_exists'.1 hf
  obtain ⟨j, nj, _, hj, hjx⟩ := (hjobs s b x).1 e1
  obtain ⟨b1, b2, b3⟩ := hp.file j nj b x hj hjx
  have hnb : ¬ InBin (home v g l ++ x) := by
    rw [inBin_home hg (dep_pkg hg e2)]
    rintro ⟨y, rfl⟩
    exact b2 rfl
  have hk := h4.keep (root ++ nmWord :: (home v g l ++ x)) (fun r hr => by
    have := List.append_cancel_left hr
    simp only [List.cons.injEq, true_and] at this
    rw [← this]; exact hnb)
  have hb : Tar.Bits f (root ++ nmWord :: (home v g l ++ x)) (f.mode i) := ⟨i, by rw [hk, hi], rfl⟩
  rw [hex _ hb] at hb
  exact hb

/-- C99, the isolated linker: and nothing else changes in the files: permission bits only of files that a command is linked to, no
contents, no cache, no names outside the folders for commands. -/
theorem C99_isolated_only (pk : Pkgs P) (v : Env) (g : Graph Str P S) (hg : Installable pk v g) (hp : PlainCommands pk g) (d : Disk V I) (hd : Fresh d)
    (order : List Nat) (ho : Order g order) (root : Loc) (fs : Tar.FS) (y : Ext) (hy : install pk v g order d = some y) (z : Tree × List Loc) (f : Tar.FS)
    (hz : linkBinsFS pk v g root y.bins ((y.tree, y.cache), fs) = some (z, f)) :
    (∀ i, f.mode i = fs.mode i ∨ (f.mode i = 0o755 ∧ ∃ (s j l : Nat) (nj nl : Node Str P S) (x : Loc), j ∈ depsOf g s ∧ g.nodes[j]? = some nj ∧
      (nl.name, x) ∈ pk.bins nj.pkg ∧ l ∈ depsOf g s ∧ g.nodes[l]? = some nl ∧ fs.files (root ++ nmWord :: (home v g l ++ x)) = some i)) ∧
    (∀ p, (∀ r, p = root ++ nmWord :: r → ¬ InBin r) → f.files p = fs.files p) ∧ (∀ p i, f.files p = some i → fs.files p = some i) ∧
    f.content = fs.content ∧ f.store = fs.store ∧ f.index = fs.index := by
  obtain ⟨y', hy', hL, hjobs, hc⟩ := fresh_ready pk v g hg hp d hd order ho
  rw [hy] at hy'
  cases hy'
  have hM : Moded pk v g root fs [] fs := ⟨fun _ _ => rfl, fun _ _ h => h, fun _ => .inl rfl,
    fun p ⟨_, _, _, _, _, h, _⟩ => (by cases h), rfl, rfl, rfl⟩
  obtain ⟨z', f', h1, h2, h3, h4⟩ := mode_all (root := root) hg _ [] _ fs hL hM hc
  unfold linkBinsFS at hz
  rw [hz] at h1
  cases h1
  refine ⟨fun i => ?_, h4.keep, h4.less, h4.content, h4.store, h4.index⟩
  rcases h4.mode i with h | ⟨h, p, ⟨s, b, x, l, nl, e1, e2, e3, e4, _, rfl⟩, hi⟩
  · exact .inl h
  · obtain ⟨j, nj, a1, a2, a3⟩ := (hjobs s b x).1 e1
    rw [nameOf_eq e4] at e3
    exact .inr ⟨h, s, j, l, nj, nl, x, a1, a2, by rw [e3]; exact a3, e2, e4, hi⟩

end Iso
end Oro
