import Verif.Proofs.TarMain
import Verif.Proofs.Bins
/-
Properties C23–C28, C54, C55: tarballs, their extraction, the package cache, and bin entries.
-/

set_option linter.unusedSectionVars false

namespace Oro
open Tar

/-! ## A concrete environment for the examples -/
namespace ExT

def str (b : Bytes) : Str := b.map fun x => Char.ofNat x.toNat
def f (p : Str) (c : Bytes) : Entry := ⟨p, p, true, c, 0o644⟩
def pj : Str := ['p', '/', 'p','a','c','k','a','g','e','.','j','s','o','n']
def pa : Str := ['p', '/', 'a']
def pb : Str := ['p', '/', 'b']
def plb : Str := ['p', '/', 'l', '/', 'b']
def evil : Str := ['p', '/', '.', '.', '/', '.', '.', '/', 'e']
def alias2 : Str := ['p', '/', 'g', '/', '.', '.', '/', 'a']

/-- digests are the data itself; tarballs are named by one byte -/
def env : Env where
  digest _ b := str b
  xxh := str
  untar b := match b with
    | [1] => ([f pa [10], f pj [7], f plb [11]], true)       -- a package with an install script
    | [2] => ([f pa [10], f pj [8], f plb [11]], true)       -- one without
    | [3] => ([f evil [66]], true)                           -- a path with `..`
    | [4] => ([f pa [10], f alias2 [66]], true)              -- two names of one file
    | [6] => ([f pa [10], f pj [8]], true)                   -- no folders
    | [5] => ([⟨pa, plb, true, [10], 0o644⟩], true)                 -- a long-name record
    | _ => ([], false)
  manifest b := match b with
    | [7] => some ⟨true, []⟩
    | [8] => some ⟨false, []⟩
    | _ => none
  reflinks := false
  hardlinks := true
  ord m := m
  limit := 2
  storeMode := 0o600
  newMode m := m
  cloneMode _ := 0o644
  copyMode _ _ := 0o644

def empty : FS := ⟨0, fun _ => [], fun _ => 0, fun _ => none, fun _ => false, fun _ => none, fun _ => none⟩
def n (b : UInt8) : Integrity := ⟨[(5, str [b])]⟩
def net (b : UInt8) : Option (List Ev) := some [.data [b]]
def d1 : Loc := [['x'], ['1']]
def d2 : Loc := [['x'], ['2']]
def d3 : Loc := [['x'], ['3']]
def d4 : Loc := [['x'], ['4']]

theorem ord_perm : ∀ m, (env.ord m).Perm m := fun _ => .refl _

theorem empty_sane : Sane empty := ⟨fun _ _ h => (by cases h), fun _ _ h => (by cases h)⟩

theorem empty_reach : Reach env empty := .init _ empty_sane (fun _ => rfl)

theorem str_inj : ∀ a b : Bytes, str a = str b → a = b := by
  intro a
  induction a with
  | nil => intro b h; cases b with
    | nil => rfl
    | cons x y => simp [str] at h
  | cons x r ih =>
    intro b h
    cases b with
    | nil => simp [str] at h
    | cons y t =>
      simp only [str, List.map_cons, List.cons.injEq] at h
      have : x = y := by
        have h1 := congrArg Char.toNat h.1
        have hv : ∀ z : UInt8, (Char.ofNat z.toNat).toNat = z.toNat := by
          intro z
          have h2 := z.toNat_lt
          have h3 : z.toNat.isValidChar := .inl (by omega)
          simp only [Char.ofNat, h3, ↓reduceDIte]
          rfl
        rw [hv, hv] at h1
        exact UInt8.toNat_inj.1 h1
      rw [this, ih t h.2]

end ExT

/-! ## C23: checked reads -/

/-- C23.  Reading a checked tarball to the end succeeds with `bs` exactly if the stream delivers `bs` without error and
`bs` has the expected integrity – however the stream is cut into chunks. -/
theorem C23_checked (digest : Nat → Bytes → Str) (evs : List Ev) (i : Integrity) (bs : Bytes) :
    (Tarball.new evs i).readAll digest = .ok bs ↔ whole evs = some bs ∧ Matches digest i bs := by
  unfold Tarball.new
  rw [readAll_checked]
  cases whole evs with
  | none => simp
  | some b =>
    simp only [List.nil_append, Option.some.injEq]
    constructor
    · intro h
      split at h
      · rename_i hc; cases h; exact ⟨rfl, check_iff.1 hc⟩
      · cases h
    · rintro ⟨rfl, h⟩; rw [if_pos (check_iff.2 h)]

/-- C23.  Data that does not match is an integrity error. -/
theorem C23_mismatch (digest : Nat → Bytes → Str) (evs : List Ev) (i : Integrity) (bs : Bytes) (h : whole evs = some bs)
    (hm : ¬ Matches digest i bs) : (Tarball.new evs i).readAll digest = .error .integrity := by
  unfold Tarball.new
  rw [readAll_checked, h]
  simp only [List.nil_append]
  rw [if_neg (fun hc => hm (check_iff.1 hc))]

/-- C23.  An integrity lists the digests of one or more algorithms; only the strongest one counts, and one of the
digests given for it must be that of the data.  An empty integrity accepts nothing. -/
theorem C23_integrity (digest : Nat → Bytes → Str) (b : Bytes) :
    (Integrity.mk []).check digest b = false ∧ ∀ (a : Nat) (d : Str) (rest : List (Nat × Str)),
    ((Integrity.mk ((a, d) :: rest)).check digest b = true ↔ d = digest a b ∨ (a, digest a b) ∈ rest) := by
  refine ⟨rfl, fun a d rest => ?_⟩
  rw [check_iff]
  simp [Matches, eq_comm]

/-- C23, for readers that go on after errors of the network: whatever happened before, the first time a reader is told that
the data has ended, all it was given has the expected integrity – unless it has been told of an integrity error already. -/
theorem C23_reads (digest : Nat → Bytes → Str) (evs : List Ev) (i : Integrity) (n : Nat) (l : List (Except RErr Bytes))
    (h : reads digest n (Tarball.new evs i) = l ++ [.ok []]) (h1 : .error .integrity ∉ l) (h2 : .ok [] ∉ l) :
    Matches digest i (delivered l) := by
  have key : ∀ (n : Nat) (l : List (Except RErr Bytes)) (evs : List Ev) (seen : Bytes),
      reads digest n ⟨some (i, seen), evs⟩ = l ++ [.ok []] → .error .integrity ∉ l → .ok [] ∉ l →
      Matches digest i (seen ++ delivered l) := by
    intro n
    induction n with
    | zero => intro l evs seen h _ _; simp [reads] at h
    | succ n ih =>
      intro l evs seen h h1 h2
      rw [reads] at h
      have hstep : (∃ e r, Tarball.pollRead digest ⟨some (i, seen), evs⟩ = (.error e, ⟨some (i, seen), r⟩)) ∨
          (∃ b r, b ≠ [] ∧ Tarball.pollRead digest ⟨some (i, seen), evs⟩ = (.ok b, ⟨some (i, seen ++ b), r⟩)) ∨
          ((Tarball.pollRead digest ⟨some (i, seen), evs⟩).1 = .ok [] ∧ Matches digest i seen) ∨
          (Tarball.pollRead digest ⟨some (i, seen), evs⟩).1 = .error .integrity := by
        have hfeed : ∀ b r, (∃ b' r', b' ≠ [] ∧ Tarball.feed digest (some (i, seen)) b r = (.ok b', ⟨some (i, seen ++ b'), r'⟩)) ∨
            ((Tarball.feed digest (some (i, seen)) b r).1 = .ok [] ∧ Matches digest i seen) ∨
            (Tarball.feed digest (some (i, seen)) b r).1 = .error .integrity := by
          intro b r
          unfold Tarball.feed
          by_cases hb : b = []
          · by_cases hc : i.check digest seen = true
            · simp [hb, hc, check_iff.1 hc]
            · simp [hb, hc]
          · left; exact ⟨b, r, hb, by simp [hb]⟩
        cases evs with
        | nil => exact .inr (hfeed [] [])
        | cons ev r =>
          cases ev with
          | fail => exact .inl ⟨.io, r, rfl⟩
          | data b => exact .inr (hfeed b r)
      rcases hstep with ⟨e, r, hp⟩ | ⟨b, r, hb, hp⟩ | ⟨hp, hm⟩ | hp
      · rw [hp] at h
        cases l with
        | nil => simp at h
        | cons x l =>
          simp only [List.cons_append, List.cons.injEq] at h
          obtain ⟨rfl, h⟩ := h
          exact ih l r seen h (fun hh => h1 (List.mem_cons_of_mem _ hh)) (fun hh => h2 (List.mem_cons_of_mem _ hh))
      · rw [hp] at h
        cases l with
        | nil =>
          simp only [List.nil_append, List.cons.injEq, Except.ok.injEq] at h
          exact absurd h.1 hb
        | cons x l =>
          simp only [List.cons_append, List.cons.injEq] at h
          obtain ⟨rfl, h⟩ := h
          have := ih l r (seen ++ b) h (fun hh => h1 (List.mem_cons_of_mem _ hh)) (fun hh => h2 (List.mem_cons_of_mem _ hh))
          rwa [List.append_assoc] at this
      · rw [hp] at h
        cases l with
        | nil => simpa [delivered] using hm
        | cons x l =>
          simp only [List.cons_append, List.cons.injEq] at h
          exact absurd (by rw [← h.1]; exact List.mem_cons_self) h2
      · rw [hp] at h
        cases l with
        | nil => simp at h
        | cons x l =>
          simp only [List.cons_append, List.cons.injEq] at h
          exact absurd (by rw [← h.1]; exact List.mem_cons_self) h1
  simpa [Tarball.new] using key n l evs [] h h1 h2

example : reads ExT.env.digest 4 (Tarball.new [.data [1, 2], .fail, .data [3]] ⟨[(5, ExT.str [1, 2, 3])]⟩) =
    [.ok [1, 2], .error .io, .ok [3]] ++ [.ok []] := by decide +kernel

/-- C23, a limit of the guarantee: a reader that ignores the integrity error and reads on is told that the data ended
normally. -/
theorem C23_read_after_error (digest : Nat → Bytes → Str) (i : Integrity) (seen : Bytes) (e : RErr) (t : Tarball)
    (h : Tarball.pollRead digest ⟨some (i, seen), []⟩ = (.error e, t)) : (Tarball.pollRead digest t).1 = .ok [] := by
  unfold Tarball.pollRead at h
  simp only [readEv, Tarball.feed] at h
  split at h
  · simp at *
  · split at h
    · cases h
    · cases h; rfl

example : whole [.data [1, 2], .data [3], .data []] = some [1, 2, 3] := by decide
example : (Tarball.new [.data [1, 2], .data [3]] ⟨[(5, ExT.str [1, 2, 3])]⟩).readAll ExT.env.digest = .ok [1, 2, 3] := by
  decide +kernel
example : (Tarball.new [.data [1, 2], .data [4]] ⟨[(5, ExT.str [1, 2, 3])]⟩).readAll ExT.env.digest =
    .error .integrity := by decide +kernel

/-! ## C24: buffering -/

/-- C24.  Buffering a tarball succeeds exactly if reading it does, and what is then read from the buffer is exactly
the bytes of the tarball; the buffer is in memory exactly if they fit in the limit. -/
theorem C24_buffering (digest : Nat → Bytes → Str) (limit : Nat) (t : Tarball) :
    (∀ e, t.readAll digest = .error e → t.intoTemp digest limit (.memory []) = .error e) ∧
    (∀ bs, t.readAll digest = .ok bs → ∃ s, t.intoTemp digest limit (.memory []) = .ok s ∧ s.bytes = bs ∧
      (bs.length ≤ limit → s = .memory bs) ∧ (limit < bs.length → ∃ v, s = .file v bs)) := by
  obtain ⟨h1, h2⟩ := intoTemp_eq digest limit t (.memory [])
  refine ⟨h1, fun bs hb => ?_⟩
  obtain ⟨s, hs, hbytes⟩ := h2 bs hb
  refine ⟨s, hs, by simpa [Temp.bytes] using hbytes, ?_⟩
  have hk : s.Kind limit := bufferFrom_inv digest limit (Temp.Kind limit) (push_kind limit) t.evs t.checker _ s
    (Nat.zero_le _) hs
  cases s with
  | memory v =>
    simp only [Temp.bytes, List.nil_append] at hbytes
    subst hbytes
    exact ⟨fun _ => rfl, fun h => absurd hk (by simp only [Temp.Kind]; omega)⟩
  | file v x =>
    simp only [Temp.bytes, List.nil_append] at hbytes
    subst hbytes
    exact ⟨fun h => absurd hk (by simp only [Temp.Kind]; omega), fun _ => ⟨v, rfl⟩⟩

/-- C24.  At no point while buffering does the memory buffer exceed the limit: `chunks` are the chunks read so far. -/
theorem C24_memory (limit : Nat) (chunks : List Bytes) :
    (chunks.foldl (Temp.push limit) (.memory [])).inMemory ≤ limit := by
  have : ∀ s : Temp, s.inMemory ≤ limit → (chunks.foldl (Temp.push limit) s).inMemory ≤ limit := by
    induction chunks with
    | nil => exact fun _ h => h
    | cons c r ih => exact fun s h => ih _ (push_inMemory limit s c h)
  exact this _ (Nat.zero_le _)

example : (Tarball.newUnchecked [.data [1, 2], .data [3, 4], .data [5]]).intoTemp ExT.env.digest 3 (.memory []) =
    .ok (.file [1, 2] [1, 2, 3, 4, 5]) := by decide +kernel
example : (Tarball.newUnchecked [.data [1, 2], .data [3]]).intoTemp ExT.env.digest 3 (.memory []) =
    .ok (.memory [1, 2, 3]) := by decide +kernel

/-! ## C25: extraction stays inside the folder -/

theorem steps_outside {env dir es a b} (hc : Contained es) (h : Steps env dir es a b) :
    ∀ p, ¬ Inside dir p → b.files p = a.files p := by
  refine h.inv (fun x => ∀ p, ¬ Inside dir p → x.files p = a.files p) (fun x y hx st p hp => ?_) (fun _ _ => rfl)
  rw [← hx p hp]
  have hne : ∀ e ∈ es, e.regular = true → p ≠ place dir e := fun e he hr h => hp (h ▸ place_inside hc he hr)
  cases st with
  | dirs => rfl
  | modes => rfl
  | commit => rfl
  | put _ e H he hr hput =>
    rcases hput with ⟨_, _, mo, rfl⟩ | ⟨_, mo, rfl⟩ | ⟨j, hj, mo, rfl⟩
    · simp only [upd_ne _ _ (hne e he hr)]; rfl
    · simp only [FS.create, upd_ne _ _ (hne e he hr)]; rfl
    · rfl
  | remove e he hr => simp only [upd_ne _ _ (hne e he hr)]
  | redo e i mo he hr => simp only [FS.create, upd_ne _ _ (hne e he hr)]
  | plain e mo he hr => simp only [FS.create, upd_ne _ _ (hne e he hr)]

/-- C25, for archives without escaping paths.  If no path in the archive leaves the folder, extracting it – whether or
not that succeeds – creates, replaces and removes files only inside the folder; and if there were no files in the folder
before, no existing file anywhere changes its contents. -/
theorem C25_network_partial (env : Env) (ho : ∀ m, (env.ord m).Perm m) (dir : Loc) (cache : Bool) (mode : Mode)
    (expected : Option Integrity) (evs : List Ev) (fs : FS)
    (hc : ∀ b, whole evs = some b → Contained (env.untar b).1) :
    (∀ p, ¬ Inside dir p → (extractData env dir cache mode expected evs fs).2.files p = fs.files p) ∧
    (Sane fs → Vacant fs dir → ∀ i, i < fs.next → (extractData env dir cache mode expected evs fs).2.content i = fs.content i) := by
  unfold extractData
  split
  · exact ⟨fun _ _ => rfl, fun _ _ _ _ => rfl⟩
  · rename_i temp hr
    have hw : whole evs = some temp.bytes := by
      have h1 := intoTemp_eq env.digest env.limit ⟨expected.map fun i => (i, []), evs⟩ (.memory [])
      cases hx : Tarball.readAll env.digest ⟨expected.map fun i => (i, []), evs⟩ with
      | error e => rw [h1.1 e hx] at hr; cases hr
      | ok bs =>
        obtain ⟨s', h2, h3⟩ := h1.2 bs hx
        rw [h2] at hr
        cases hr
        rw [h3]
        cases expected with
        | none =>
          rw [Option.map_none, readAll_unchecked] at hx
          cases hw : whole evs with
          | none => rw [hw] at hx; cases hx
          | some b => rw [hw] at hx; cases hx; rfl
        | some i => exact ((C23_checked env.digest evs i bs).1 hx).1
    have hcon := hc _ hw
    obtain ⟨fs1, idx, st, rec⟩ := extractTemp_steps (dir := dir) (cache := cache) (ex := expected) (mode := mode)
      (b := temp.bytes) (fs := fs) ho
    have hf : (extractTemp env dir cache expected mode temp.bytes fs).2.files = fs1.files ∧
        (extractTemp env dir cache expected mode temp.bytes fs).2.content = fs1.content := by
      rcases rec with ⟨_, h⟩ | ⟨k, _, _, h⟩ | ⟨k, _, _, h⟩ <;> rw [h] <;> exact ⟨rfl, rfl⟩
    refine ⟨fun p hp => by rw [hf.1]; exact steps_outside hcon st p hp, fun hs hv i hi => ?_⟩
    rw [hf.2]
    exact (st.inv (Frame dir fs) (fun x y hx s => step_frame hcon hx s) (frame_init hs hv)).old i hi

/-- C25, from the cache: linking a cached package whose listed paths do not leave the folder touches no name outside. -/
theorem C25_cached_partial (env : Env) (ho : ∀ m, (env.ord m).Perm m) (dir : Loc) (mode : Mode) (idx : Index) (fs : FS)
    (hc : ∀ kh ∈ idx.files, StaysBelow 0 kh.1) (p : Loc) (hp : ¬ Inside dir p) :
    (∀ fs', extractCached env dir mode (.good idx) fs = .ok fs' → fs'.files p = fs.files p) ∧
    (∀ fs', extractCached env dir mode (.good idx) fs = .error fs' → fs'.files p = fs.files p) := by
  have hc' : ∀ kh ∈ env.ord idx.files, StaysBelow 0 kh.1 := fun kh h => hc kh ((ho _).mem_iff.1 h)
  have : ∀ (l : List (List Comp × (Str × Nat))) created fs, (∀ kh ∈ l, StaysBelow 0 kh.1) →
      (∀ fs', linkAll env dir (cacheMode idx mode) l created fs = .ok fs' → fs'.files p = fs.files p) ∧
      (∀ fs', linkAll env dir (cacheMode idx mode) l created fs = .error fs' → fs'.files p = fs.files p) := by
    intro l
    induction l with
    | nil => intro _ _ _; exact ⟨fun _ h => (by cases h; rfl), fun _ h => (by cases h)⟩
    | cons kh r ih =>
      intro created fs hl
      obtain ⟨k, h⟩ := kh
      have hin := goTo_inside dir [] k (hl _ (List.mem_cons_self ..))
      rw [List.append_nil] at hin
      have hne : p ≠ RPath.goTo dir k := fun h => hp (h ▸ hin)
      simp only [linkAll]
      cases h1 : mkdirp created fs (RPath.goTo dir k).dropLast with
      | none => exact ⟨fun _ h => (by cases h), fun _ h => (by cases h; rfl)⟩
      | some cf =>
        obtain ⟨created1, fs1⟩ := cf
        obtain ⟨d, rfl⟩ := mkdirp_eq h1
        simp only
        cases h2 : extractFile env (cacheMode idx mode) { fs with dirs := d } h (RPath.goTo dir k) with
        | none => exact ⟨fun _ h => (by cases h), fun _ h => (by cases h; rfl)⟩
        | some fs2 =>
          obtain ⟨_, _, _, hput⟩ := extractFile_put h2
          have e2 : fs2.files p = fs.files p := by
            rcases hput with ⟨_, _, mo, rfl⟩ | ⟨_, mo, rfl⟩ | ⟨j, hj, mo, rfl⟩
            · simp only [upd_ne _ _ hne]
            · simp only [FS.create, upd_ne _ _ hne]
            · rfl
          have := ih created1 fs2 (fun x hx => hl x (List.mem_cons_of_mem _ hx))
          exact ⟨fun fs' h => (this.1 fs' h).trans e2, fun fs' h => (this.2 fs' h).trans e2⟩
  exact this _ _ _ (fun x hx => by obtain ⟨kh, hkh, rfl⟩ := List.mem_map.1 hx; exact hc' kh hkh)

/-- C25 fails: a tarball can write a file outside the folder it is extracted into. -/
theorem C25_fails : ∃ (env : Env) (dir p : Loc) (evs : List Ev) (i : Integrity), ¬ Inside dir p ∧
    (extractToDir env dir true .auto (some i) (some evs) ExT.empty).1 = some i ∧
    Holds (extractToDir env dir true .auto (some i) (some evs) ExT.empty).2 p [66] :=
  ⟨ExT.env, ExT.d1, [['e']], [.data [3]], ExT.n 3, by unfold Inside; decide, by decide +kernel, 1, by decide +kernel,
    by decide +kernel⟩

/-- a history of four extractions: the hostile package of `ExT` (number 4, two names for one file), an innocent
package (number 2) twice, the second time repairing the cache, and the hostile package again -/
def ExT.h1 : FS := (extractToDir ExT.env ExT.d1 true .hardlink (some (ExT.n 4)) (ExT.net 4) ExT.empty).2
def ExT.h2 : FS := (extractToDir ExT.env ExT.d2 true .hardlink (some (ExT.n 2)) (ExT.net 2) ExT.h1).2
def ExT.h3 : FS := (extractToDir ExT.env ExT.d3 true .hardlink (some (ExT.n 4)) (ExT.net 4) ExT.h2).2

/-- C25 fails for contents too, even without escaping paths: extracting a cached package that has two names for one file
changes a file of another, innocent package that is hard-linked to the cache. -/
theorem C25_shared_fails : Reach ExT.env ExT.h2 ∧ Holds ExT.h2 (ExT.d2 ++ [['a']]) [10] ∧ ¬ Inside ExT.d3 (ExT.d2 ++ [['a']]) ∧
    (∀ e ∈ (ExT.env.untar [4]).1, StaysBelow 0 (RPath.components e.header).tail) ∧
    (extractToDir ExT.env ExT.d3 true .hardlink (some (ExT.n 4)) (ExT.net 4) ExT.h2).1 = some (ExT.n 4) ∧
    Holds ExT.h3 (ExT.d2 ++ [['a']]) [66] :=
  ⟨.extract _ _ _ _ _ _ (.extract _ _ _ _ _ _ ExT.empty_reach), ⟨_, rfl, by decide +kernel⟩, by unfold Inside; decide,
    by decide +kernel, by decide +kernel, ⟨_, rfl, by decide +kernel⟩⟩

example : Contained (ExT.env.untar [1]).1 := by unfold Contained; decide +kernel
example : ¬ Contained (ExT.env.untar [3]).1 := by unfold Contained; decide +kernel

/-! ## C26: packages with install scripts do not share files with the cache -/

/-- C26, extraction from the network, all files but package.json itself.  If the archive's package.json declares an
install script then, wherever it is in the archive and whatever the link mode, no file of the package other than
package.json is shared with the cache. -/
theorem C26_network_partial (env : Env) (ho : ∀ m, (env.ord m).Perm m) (dir : Loc) (mode : Mode)
    (expected : Option Integrity) (b : Bytes) (fs fs' : FS) (k : Integrity) (hs : Sane fs) (hv : Vacant fs dir)
    (hsc : HasScripts env (env.untar b).1) (h : extractTemp env dir true expected mode b fs = (some k, fs')) :
    ∀ p, Inside dir p → p ≠ dir ++ [kPackageJson] → ¬ SharedWithCache fs' p :=
  fun p hin hne hsh => hne (extractTemp_private ho hs hv hsc h p hin hsh)

/-- C26, extraction from the cache.  If the index entry describes a package with install scripts, none of its files is
shared with the cache. -/
theorem C26_cached (env : Env) (ho : ∀ m, (env.ord m).Perm m) (dir : Loc) (mode : Mode) (i : Integrity) (idx : Index)
    (fs fs' : FS) (hr : Reach env fs) (hv : Vacant fs dir) (hi : fs.index i = some (.good idx))
    (hsc : ∀ t, Matches env.digest i t → HasScripts env (env.untar t).1 ∧ Plain (env.untar t).1)
    (h : extractCached env dir mode (.good idx) fs = .ok fs') : ∀ p, Inside dir p → ¬ SharedWithCache fs' p := by
  obtain ⟨hs, hh⟩ := reach_honest ho hr
  obtain ⟨t, ht, hu, hidx, _, hcopy⟩ := hh i idx hi
  obtain ⟨hscr, hpl⟩ := hsc t ht
  have hl := ((extractCached_linked (m := mode) ho hpl hs hv hidx).1 fs' h).1
  have hm : (cacheMode idx mode).isCopy = true := by
    unfold cacheMode
    rw [hcopy hscr]
    cases mode <;> rfl
  intro p hin hsh
  obtain ⟨_, _, hf, _⟩ := hl.priv hm p hsh
  rw [hv p hin] at hf
  cases hf

/-- C26 fails: after extracting a package with an install script from the network in hard-link mode, its package.json
is the cache's own copy, so a script that edits package.json edits the cache. -/
theorem C26_fails : ∃ (env : Env) (dir : Loc) (b : Bytes) (i : Integrity), HasScripts env (env.untar b).1 ∧
    (extractToDir env dir true .hardlink (some i) (some [.data b]) ExT.empty).1 = some i ∧
    SharedWithCache (extractToDir env dir true .hardlink (some i) (some [.data b]) ExT.empty).2 (dir ++ [kPackageJson]) := by
  refine ⟨ExT.env, ExT.d1, [1], ExT.n 1, ⟨ExT.f ExT.pj [7], by decide, rfl, by decide +kernel, ⟨true, []⟩, rfl, rfl⟩,
    by decide +kernel, 1, ExT.str [7], by decide +kernel, by decide +kernel⟩

example : HasScripts ExT.env (ExT.env.untar [1]).1 :=
  ⟨ExT.f ExT.pj [7], by decide, rfl, by decide +kernel, ⟨true, []⟩, rfl, rfl⟩
example : (extractTemp ExT.env ExT.d1 true (some (ExT.n 1)) .hardlink [1] ExT.empty).1 = some (ExT.n 1) := by decide +kernel
-- without scripts the same mode does share
example : SharedWithCache (extractTemp ExT.env ExT.d1 true (some (ExT.n 2)) .hardlink [2] ExT.empty).2 (ExT.d1 ++ [['a']]) :=
  ⟨0, ExT.str [10], by decide +kernel, by decide +kernel⟩

-- the hypotheses of `C26_cached` hold after an extraction from the network: the index has an entry, and it is usable
example : (match (extractToDir ExT.env ExT.d1 true .hardlink (some (ExT.n 1)) (ExT.net 1) ExT.empty).2.index (ExT.n 1) with
    | some (.good idx) => match extractCached ExT.env ExT.d2 .hardlink (.good idx)
        (extractToDir ExT.env ExT.d1 true .hardlink (some (ExT.n 1)) (ExT.net 1) ExT.empty).2 with
      | .ok fs => fs.files (ExT.d2 ++ [['a']]) = some 7 ∨ (fs.files (ExT.d2 ++ [['a']])).isSome
      | .error _ => False
    | _ => False) := by
  right
  decide +kernel

/-! ## C27: the cache -/

/-- C27.  In every history of a machine – packages extracted from anywhere with any options, cached contents and
installed files altered, damaged or removed at will in between – every readable entry of the cache's index describes a
tarball with the integrity it is filed under. -/
theorem C27_index_honest (env : Env) (ho : ∀ m, (env.ord m).Perm m) (fs : FS) (h : Reach env fs) : Honest env fs :=
  (reach_honest ho h).2

/-- C27.  After any such history, extracting a package with a known integrity into an empty folder either fails, or
leaves in that folder exactly the files of a tarball with that integrity – whether it came from the cache, from a
damaged cache or from the network.  (Assumed: no two tarballs have this integrity; the archive's paths are plain and
distinct.  "Exactly the files" is up to collisions of cacache's content hash.) -/
theorem C27_extract_partial (env : Env) (ho : ∀ m, (env.ord m).Perm m) (dir : Loc) (cache : Bool) (mode : Mode)
    (i k : Integrity) (net : Option (List Ev)) (fs fs' : FS) (hr : Reach env fs) (hv : Vacant fs dir)
    (huniq : ∀ t t', Matches env.digest i t → Matches env.digest i t' → t = t')
    (hgood : ∀ t, Matches env.digest i t → (env.untar t).2 = true →
      Plain (env.untar t).1 ∧ Distinct dir (env.untar t).1)
    (h : extractToDir env dir cache mode (some i) net fs = (some k, fs')) :
    k = i ∧ ∃ t, Matches env.digest i t ∧ (env.untar t).2 = true ∧ Installed env dir (env.untar t).1 fs' :=
  let ⟨hs, hh⟩ := reach_honest ho hr
  extractToDir_installed ho hs hh hv huniq hgood h

theorem ExT.n_check (b : UInt8) (t : Bytes) : Matches ExT.env.digest (ExT.n b) t ↔ t = [b] := by
  constructor
  · intro h
    simp only [Matches, ExT.n, ExT.env, List.head?_cons, Option.map_some, Option.some.injEq, exists_eq_left', List.mem_cons,
      Prod.mk.injEq, true_and, List.not_mem_nil, or_false] at h
    exact ExT.str_inj _ _ h
  · rintro rfl
    simp [Matches, ExT.n, ExT.env]

/-- a damaged cache: the innocent package was extracted, then someone overwrote all cached contents -/
def ExT.damaged : FS :=
  { (extractToDir ExT.env ExT.d1 true .hardlink (some (ExT.n 2)) (ExT.net 2) ExT.empty).2 with
    content := fun _ => [99], dirs := fun _ => false }

-- the hypotheses of `C27_extract_partial` hold, and the extraction succeeds, via the network
example : Reach ExT.env ExT.damaged ∧ Vacant ExT.damaged ExT.d2 ∧
    (extractToDir ExT.env ExT.d2 true .hardlink (some (ExT.n 2)) (ExT.net 2) ExT.damaged).1 = some (ExT.n 2) ∧
    Plain (ExT.env.untar [2]).1 ∧ Distinct ExT.d2 (ExT.env.untar [2]).1 := by
  refine ⟨.other _ _ (.extract _ ExT.d1 true .hardlink (some (ExT.n 2)) (ExT.net 2) ExT.empty_reach) ?_ (fun _ _ h => h), ?_, by decide +kernel, ?_, ?_⟩
  · exact (reach_honest ExT.ord_perm
      (Reach.extract ExT.empty ExT.d1 true .hardlink (some (ExT.n 2)) (ExT.net 2) ExT.empty_reach)).1
  · intro p hp
    have h := (C25_network_partial ExT.env ExT.ord_perm ExT.d1 true .hardlink (some (ExT.n 2)) [.data [2]] ExT.empty
      (by intro b hb; cases hb; unfold Contained; decide +kernel)).1 p (by
        obtain ⟨r, rfl⟩ := hp
        rintro ⟨r', hr'⟩
        simp [ExT.d1, ExT.d2] at hr')
    exact h
  · intro e he hr c hc
    have : ∀ e ∈ (ExT.env.untar [2]).1, ∀ c ∈ (RPath.components e.header).tail,
        (match c with | .normal _ => true | _ => false) = true := by decide +kernel
    have := this e he c hc
    cases c <;> simp at this
    exact ⟨_, rfl⟩
  · unfold Distinct; decide +kernel

/-- C27 fails in one respect: if the index entry itself is damaged, it is neither removed nor bypassed – extraction fails
although the network would deliver the package. -/
theorem C27_broken_index_fails (env : Env) (dir : Loc) (mode : Mode) (i : Integrity) (net : Option (List Ev)) (fs : FS)
    (h : fs.index i = some .broken) : extractToDir env dir true mode (some i) net fs = (none, fs) := by
  simp only [extractToDir, ↓reduceIte, h, extractCached, fallback, evict, clean]

/-- a cache in which one file of the innocent package (in the folder `l`) is good and another is damaged -/
def ExT.half : FS :=
  let fs := (extractToDir ExT.env ExT.d1 true .copy (some (ExT.n 2)) (ExT.net 2) ExT.empty).2
  { fs with content := fun x => if fs.store (ExT.str [10]) = some x then [99] else fs.content x }

/-- the same environment, iterating hash maps in the opposite order -/
def ExT.envRev : Env := { ExT.env with ord := fun m => m.reverse }

/-- C27 fails in another respect: a damaged cache entry is removed and the network asked, but if a folder of the package
was already created from the cache, the extraction of the perfectly good tarball fails because that folder exists. -/
theorem C27_fallback_fails : (extractToDir ExT.envRev ExT.d2 true .copy (some (ExT.n 2)) (ExT.net 2) ExT.half).1 = none ∧
    (extractToDir ExT.envRev ExT.d2 true .copy (some (ExT.n 2)) (ExT.net 2) ExT.empty).1 = some (ExT.n 2) := by
  constructor <;> decide +kernel

/-- C27 fails if the folder is not empty: extracting the same package (one without subfolders) twice into the same folder in
hard-link mode succeeds and leaves its files – and the cache's – empty. -/
theorem C27_twice_fails :
    let fs1 := (extractToDir ExT.env ExT.d1 true .hardlink (some (ExT.n 6)) (ExT.net 6) ExT.empty).2
    let r := extractToDir ExT.env ExT.d1 true .hardlink (some (ExT.n 6)) (ExT.net 6) fs1
    Holds fs1 (ExT.d1 ++ [['a']]) [10] ∧ r.1 = some (ExT.n 6) ∧ Holds r.2 (ExT.d1 ++ [['a']]) [] :=
  ⟨⟨0, by decide +kernel, by decide +kernel⟩, by decide +kernel, ⟨0, by decide +kernel, by decide +kernel⟩⟩

/-! ## C54: packages with only a SHA-1 checksum -/

/-- C54 fails: registry metadata with only a `shasum` (40 hexadecimal digits) is turned into the integrity
`sha1-<hex>`, but the digest of the data is compared in base64 (28 characters for SHA-1), so no data is ever accepted:
extracting such a package fails, whatever the registry delivers and whatever is in the cache. -/
theorem C54_fails (env : Env) (ho : ∀ m, (env.ord m).Perm m) (sha1 : Nat) (hlen : ∀ b, (env.digest sha1 b).length = 28)
    (hex : Str) (hhex : hex.length = 40) (dir : Loc) (cache : Bool) (mode : Mode) (net : Option (List Ev)) (fs : FS)
    (hr : Reach env fs) : (extractToDir env dir cache mode (some ⟨[(sha1, hex)]⟩) net fs).1 = none := by
  have hno : ∀ t, ¬ Matches env.digest (Integrity.mk [(sha1, hex)]) t := by
    intro t hc
    rcases ((C23_integrity env.digest t).2 sha1 hex []).1 (check_iff.2 hc) with h | h
    · have := hlen t; rw [← h, hhex] at this; omega
    · cases h
  have hdata : ∀ cache evs fs, extractData env dir cache mode (some ⟨[(sha1, hex)]⟩) evs fs = (none, fs) := by
    intro cache evs fs
    rcases extractData_checked (env := env) (dir := dir) (cache := cache) (mode := mode) (ex := some ⟨[(sha1, hex)]⟩)
      (evs := evs) (fs := fs) with h | ⟨b, hb, _⟩
    · exact h
    · exact absurd (hb _ rfl) (hno b)
  have hnet : ∀ cache fs, (viaNet env dir cache mode (some ⟨[(sha1, hex)]⟩) net fs).1 = none := by
    intro cache fs
    cases net with
    | none => rfl
    | some evs => simp only [viaNet, hdata]
  simp only [extractToDir]
  split
  · split
    · exact hnet _ _
    · rename_i e he
      cases e with
      | broken => simp only [extractCached, fallback, evict, he, clean]
      | good idx =>
        obtain ⟨t, ht, _⟩ := (reach_honest ho hr).2 _ _ he
        exact absurd ht (hno t)
  · exact hnet _ _

/-! ## C55: files are extracted at their own path -/

/-- the location of an entry by its actual path -/
def Tar.truePlace (dir : Loc) (e : Entry) : Loc := RPath.goTo dir (RPath.components e.full).tail

/-- C55 fails: an entry whose path is too long for the header block (so that the archive carries it in a separate
record) is extracted under the shortened name in the header, with no error. -/
theorem C55_fails : ∃ (env : Env) (dir : Loc) (b : Bytes) (i : Integrity) (e : Entry), (env.untar b).1 = [e] ∧
    (extractToDir env dir true .auto (some i) (some [.data b]) ExT.empty).1 = some i ∧
    (extractToDir env dir true .auto (some i) (some [.data b]) ExT.empty).2.files (truePlace dir e) = none :=
  ⟨ExT.env, ExT.d1, [5], ExT.n 5, ⟨ExT.pa, ExT.plb, true, [10], 0o644⟩, rfl, by decide +kernel, by decide +kernel⟩

/-- C55 for archives in which every path fits its header: a successful extraction into an empty folder puts every file
at its own path. -/
theorem C55_partial (env : Env) (ho : ∀ m, (env.ord m).Perm m) (dir : Loc) (cache : Bool) (mode : Mode)
    (expected : Option Integrity) (b : Bytes) (fs fs' : FS) (k : Integrity) (hs : Sane fs) (hv : Vacant fs dir)
    (hc : Contained (env.untar b).1) (hd : Distinct dir (env.untar b).1)
    (hfull : ∀ e ∈ (env.untar b).1, e.full = e.header)
    (h : extractTemp env dir cache expected mode b fs = (some k, fs')) :
    ∀ e ∈ (env.untar b).1, e.regular = true →
      ∃ c, Holds fs' (truePlace dir e) c ∧ env.xxh c = env.xxh e.content := by
  intro e he hr
  have := (extractTemp_installed ho hs hc hd (vacant_allFrom hv) h).2.1 e he hr
  unfold truePlace
  rw [hfull e he]
  exact this

example : (extractTemp ExT.env ExT.d1 true none .copy [2] ExT.empty).1 ≠ none ∧
    (∀ e ∈ (ExT.env.untar [2]).1, e.full = e.header) := by constructor <;> decide +kernel

/-! ## C28: bin entries -/

/-- C28.  Every command of a normalised manifest has a name that denotes one file directly in the folder it is linked
into – not empty, not `.` or `..`, without `/`, `\` or `:` – and a target that is a non-empty relative path. -/
theorem C28_names (ord : IMap Str Str → List (Str × Str)) (disk : Bins.Disk) (cwd : Loc) (r : Bins.Raw) (m : IMap Str (List Comp))
    (h : Bins.normalize ord disk cwd r = some m) :
    ∀ kv ∈ m, (kv.1 ≠ [] ∧ kv.1 ≠ ['.'] ∧ kv.1 ≠ ['.', '.'] ∧ '/' ∉ kv.1 ∧ '\\' ∉ kv.1 ∧ ':' ∉ kv.1) ∧
      kv.2 ≠ [] ∧ .root ∉ kv.2 := by
  simp only [Bins.normalize, Option.map_eq_some_iff] at h
  obtain ⟨d, _, rfl⟩ := h
  refine Bins.foldl_addBin_inv (fun k v => (k ≠ [] ∧ k ≠ ['.'] ∧ k ≠ ['.', '.'] ∧ '/' ∉ k ∧ '\\' ∉ k ∧ ':' ∉ k) ∧
    v ≠ [] ∧ .root ∉ v) ?_ _ [] (by simp)
  intro n p b hb ht
  obtain ⟨⟨h1, h2, h3, h4⟩, h5, h6⟩ := Bins.baseName_some hb
  refine ⟨⟨h1, h2, h3, h4, h5, h6⟩, ht, ?_⟩
  simp [Bins.target]

/-- C28, outside its statement: a target may lead out of the package (`..`), and extraction makes the file it names
executable. -/
theorem C28_target_may_escape : ∃ (r : Bins.Raw) (m : IMap Str (List Comp)) (n : Str) (t : List Comp),
    Bins.normalize (fun m => m) (fun _ => none) [] r = some m ∧ m.get? n = some t ∧ ¬ StaysBelow 0 t :=
  ⟨⟨none, some (.hash [(['x'], ['.', '.', '/', 'y'])]), none⟩, _, ['x'], [.parent, .normal ['y']], rfl, by decide +kernel,
    by decide⟩

example : Bins.normalize (fun m => m) (fun _ => none) []
    ⟨some ['@', 's', '/', 't'], some (.str ['.', '/', 'c', '.', 'j', 's']), none⟩ =
    some [(['t'], [.normal ['c', '.', 'j', 's']])] := by decide +kernel
example : Bins.normalize (fun m => m) (fun _ => none) []
    ⟨none, some (.hash [(['.', '.', '/', 'a', '\\', 'b'], ['/', 'c']), (['.', '.'], ['d'])]), none⟩ =
    some [(['b'], [.normal ['c']])] := by decide +kernel

end Oro
