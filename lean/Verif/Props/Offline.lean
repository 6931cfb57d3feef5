import Verif.Proofs.TarFiled
import Verif.Props.InstallRun
import Verif.Props.StoreRun
import Verif.Props.Further
/-
C97: what was installed once can be installed again without the network.
-/

set_option linter.unusedSectionVars false

namespace Oro
namespace Tar

/-- C97: whatever else is being extracted at the same time, a package that counts as extracted is in the cache, complete and
undamaged (if there is a cache), at every moment from then on; and nothing that was in the cache is lost. -/
theorem C97_cached (env : Env) (ho : ∀ f, (env.ord f).Perm f) (hcol : NoCol env) (fs : FS) (hs : Sane fs)
    (hh : Honest env fs) (jobs : Nat → Option Job) (tar : Nat → Bytes) (h : Ready env jobs tar fs) (sched : List Nat) :
    (∀ n j i, jobs n = some j → j.cache = true → (((Runs.init fs).run env jobs sched).pcs n).outcome = some (some i) →
      InCache env i ((Runs.init fs).run env jobs sched).fs) ∧
    ∀ i, InCache env i fs → InCache env i ((Runs.init fs).run env jobs sched).fs := by
  obtain ⟨h1, h2⟩ := filed_run ho hcol h sched _ (fine_init hs (honest_weak hh) h) filed_init
  refine ⟨fun n j i hj hc hout => ?_, h2⟩
  have h3 := h1 n j hj
  cases hx : ((Runs.init fs).run env jobs sched).pcs n <;> rw [hx] at hout h3 <;> simp only [PC.outcome] at hout <;> try cases hout
  exact h3 hc

end Tar

/-- the package can be had without the network -/
theorem obtainable_offline {env : Tar.Env} {j j' : Tar.Job} {t : Hoisted.Bytes} {fs fs' : Tar.FS} {i : Tar.Integrity}
    (h : Hoisted.Obtainable env j t fs) (hj : j.expected = some i) (hj' : j'.expected = some i) (hc : j'.cache = true)
    (hi : Tar.InCache env i fs') : Hoisted.Obtainable env j' t fs' := by
  obtain ⟨idx, h1, h2⟩ := hi
  refine ⟨fun t' => ?_, h.complete, h.plain, h.sound, .inr ⟨hc, i, idx, hj', h1⟩, fun i' hi' ce hce => ?_⟩
  · have := h.fits t'
    unfold Tar.Job.Fits at this ⊢
    rw [hj] at this
    rw [hj']
    exact this
  · rw [hj'] at hi'
    cases hi'
    rw [h1] at hce
    cases hce
    exact ⟨idx, rfl, h2⟩

namespace Hoisted
variable {P S : Type} [DecidableEq S]
variable {env : Tar.Env} {build : Bytes → Option Bool} {pr : Bytes → Bytes} {pk : Pkgs P} {g : Graph Str P S} {o : XOpts}
  {fetch : P → Option Tar.Integrity × Option (List Tar.Ev)} {tar : P → Bytes} {fs : Tar.FS}

/-- C97, hoisted linker: at every moment of an install, every package extracted so far that has an integrity is in the cache, and
nothing is lost from the cache. -/
theorem C97_cached (ho : ∀ f, (env.ord f).Perm f) (hcol : Tar.NoCol env) (hs : Tar.Sane fs) (hh : Tar.Honest env fs)
    (h : Further env build pr pk g o fetch tar fs) (hc : o.cache = true) (sched : List Nat) (hord : ListOrder (jobsFor o g fetch) sched) :
    (∀ i nd b k, i ≠ 0 → g.nodes[i]? = some nd → ((XRun.init fs).run env build (jobsFor o g fetch) sched).phase i = .extracted b →
      (fetch nd.pkg).1 = some k → Tar.InCache env k ((XRun.init fs).run env build (jobsFor o g fetch) sched).runs.fs) ∧
    ∀ k, Tar.InCache env k fs → Tar.InCache env k ((XRun.init fs).run env build (jobsFor o g fetch) sched).runs.fs := by
  have hx := furtherinv_run ho hcol hs hh h sched hord
  have hF := Tar.fine_run ho hcol (further_ready h) sched _ (fine_further hs hh h)
  obtain ⟨h1, h2⟩ := Tar.filed_run ho hcol (further_ready h) sched _ (fine_further hs hh h) Tar.filed_init
  rw [hx.runs]
  refine ⟨fun i nd b k h0 hi hp hk => ?_, h2⟩
  have hj : jobsFor o g fetch i = some ⟨o.root ++ nmWord :: targetDir g i, o.cache, o.mode, (fetch nd.pkg).1, (fetch nd.pkg).2⟩ := by
    unfold jobsFor
    rw [if_neg h0, hi]
    rfl
  by_cases hin : i ∈ sched
  · cases htk : fs.taken (o.root ++ nmWord :: targetDir g i) with
    | true =>
      rw [hx.kept i _ hj htk hin] at hp
      cases hp
    | false =>
      have hab := absent_some.2 ⟨hj, htk⟩
      rcases hx.begun i _ hab hin with hq | ⟨_, d, hd⟩
      · rw [hq] at hp; cases hp
      · rw [hx.runs] at hd
        have h3 := h1 i _ hab
        have h4 := hF.pc i _ hab
        rw [hd] at h3 h4
        have h5 : d = k := by
          have h4 : d = ((fetch nd.pkg).1).getD _ := h4
          rw [hk] at h4
          exact h4
        rw [h5] at h3
        exact h3 hc
  · rw [hx.waiting i (by rw [hj]; rfl) hin] at hp
    cases hp

/-- the same for a first install -/
theorem cached_first (ho : ∀ f, (env.ord f).Perm f) (hcol : Tar.NoCol env) (hs : Tar.Sane fs) (hh : Tar.Honest env fs)
    (h : Start env build pr pk g o fetch tar fs) (hc : o.cache = true) (sched : List Nat) (hord : ListOrder (jobsFor o g fetch) sched)
    {i : Nat} {nd : Node Str P S} {b : Bool} {k : Tar.Integrity} (h0 : i ≠ 0) (hi : g.nodes[i]? = some nd)
    (hp : ((XRun.init fs).run env build (jobsFor o g fetch) sched).phase i = .extracted b) (hk : (fetch nd.pkg).1 = some k) :
    Tar.InCache env k ((XRun.init fs).run env build (jobsFor o g fetch) sched).runs.fs := by
  have hx := runinv_run ho hcol hs hh h sched hord
  have hR := ready_of h
  have hF := Tar.fine_run ho hcol hR sched _ (Tar.fine_init hs (Tar.honest_weak hh) hR)
  obtain ⟨h1, _⟩ := Tar.filed_run ho hcol hR sched _ (Tar.fine_init hs (Tar.honest_weak hh) hR) Tar.filed_init
  rw [hx.runs]
  have hj : jobsFor o g fetch i = some ⟨o.root ++ nmWord :: targetDir g i, o.cache, o.mode, (fetch nd.pkg).1, (fetch nd.pkg).2⟩ := by
    unfold jobsFor
    rw [if_neg h0, hi]
    rfl
  by_cases hin : i ∈ sched
  · rcases hx.begun i (by rw [hj]; rfl) hin with hq | ⟨_, d, hd⟩
    · rw [hq] at hp; cases hp
    · rw [hx.runs] at hd
      have h3 := h1 i _ hj
      have h4 := hF.pc i _ hj
      rw [hd] at h3 h4
      have h5 : d = k := by
        have h4 : d = ((fetch nd.pkg).1).getD _ := h4
        rw [hk] at h4
        exact h4
      rw [h5] at h3
      exact h3 hc
  · rw [hx.waiting i (by rw [hj]; rfl) hin] at hp
    cases hp

/-- what is needed for an install without the network -/
theorem start_offline {g' : Graph Str P S} {o' : XOpts} {fs' : Tar.FS} (h : Start env build pr pk g o fetch tar fs) (hg : Installable pk g')
    (hb : EmptyModules o'.root fs') (hc' : o'.cache = true)
    (hpk : ∀ i nd, i ≠ 0 → g'.nodes[i]? = some nd → ∃ k nd', k ≠ 0 ∧ g.nodes[k]? = some nd' ∧ nd'.pkg = nd.pkg)
    (hin : ∀ i nd, i ≠ 0 → g'.nodes[i]? = some nd → ∃ x, (fetch nd.pkg).1 = some x ∧ Tar.InCache env x fs') :
    Start env build pr pk g' o' (offline fetch) tar fs' where
  tree := hg
  bare := hb
  packages i nd j h0 hi hj := by
    obtain ⟨k, nd', hk0, hk, he⟩ := hpk i nd h0 hi
    obtain ⟨x, hx, hcx⟩ := hin i nd h0 hi
    unfold jobsFor at hj
    rw [if_neg h0, hi] at hj
    cases hj
    have hob := h.packages k nd' ⟨o.root ++ nmWord :: targetDir g k, o.cache, o.mode, (fetch nd'.pkg).1, (fetch nd'.pkg).2⟩ hk0 hk
      (by unfold jobsFor; rw [if_neg hk0, hk]; rfl)
    rw [he] at hob
    exact obtainable_offline hob hx hx hc' hcx
  packed i nd h0 hi := by
    obtain ⟨k, nd', hk0, hk, he⟩ := hpk i nd h0 hi
    rw [← he]
    exact h.packed k nd' hk0 hk
  built i nd h0 hi := by
    obtain ⟨k, nd', hk0, hk, he⟩ := hpk i nd h0 hi
    rw [← he]
    exact h.built k nd' hk0 hk
  sight := h.sight
  reading := h.reading

/-- C97, hoisted linker: once an install with a cache is over, a project (the same one with its node_modules removed, or another) made
of the same packages is installed without the network, whatever the link modes, as long as the cache keeps what it has: nothing
fails, at any moment; it comes to its end; and what is below node_modules then is what its tree asks for. -/
theorem C97_offline (ho : ∀ f, (env.ord f).Perm f) (hcol : Tar.NoCol env) (hs : Tar.Sane fs) (hh : Tar.Honest env fs)
    (h : Start env build pr pk g o fetch tar fs) (hc : o.cache = true) (hint : ∀ i nd, i ≠ 0 → g.nodes[i]? = some nd → (fetch nd.pkg).1 ≠ none)
    (sched : List Nat) (hord : ListOrder (jobsFor o g fetch) sched)
    (hend : ∀ i nd, i ≠ 0 → g.nodes[i]? = some nd → ∃ b, ((XRun.init fs).run env build (jobsFor o g fetch) sched).phase i = .extracted b)
    {g' : Graph Str P S} {o' : XOpts} {fs' : Tar.FS}
    (hk : Tar.CacheKept env ((XRun.init fs).run env build (jobsFor o g fetch) sched).runs.fs fs') (hs' : Tar.Sane fs') (hh' : Tar.Honest env fs')
    (hg' : Installable pk g') (hb' : EmptyModules o'.root fs') (hc' : o'.cache = true)
    (hpk : ∀ i nd, i ≠ 0 → g'.nodes[i]? = some nd → ∃ k nd', k ≠ 0 ∧ g.nodes[k]? = some nd' ∧ nd'.pkg = nd.pkg)
    (s : Nat → Nat) (hord' : ∀ m, ListOrder (jobsFor o' g' (offline fetch)) ((List.range m).map s))
    (hfair : ∀ i nd, i ≠ 0 → g'.nodes[i]? = some nd → ∀ N, ∃ m, N ≤ m ∧ s m = i) :
    (∀ m n, ((XRun.init fs').run env build (jobsFor o' g' (offline fetch)) ((List.range m).map s)).phase n ≠ .failed) ∧
    ∃ M, ∀ m, M ≤ m →
      Installed pk g' (seen pr o'.root ((XRun.init fs').run env build (jobsFor o' g' (offline fetch)) ((List.range m).map s)).runs.fs) := by
  have hS : Start env build pr pk g' o' (offline fetch) tar fs' := start_offline h hg' hb' hc' hpk fun i nd h0 hi => by
    obtain ⟨k, nd', hk0, hkn, he⟩ := hpk i nd h0 hi
    obtain ⟨x, hx⟩ := Option.ne_none_iff_exists'.1 (hint k nd' hk0 hkn)
    obtain ⟨b, hb⟩ := hend k nd' hk0 hkn
    refine ⟨x, by rw [← he]; exact hx, Tar.incache_kept hk ?_⟩
    exact cached_first ho hcol hs hh h hc sched hord hk0 hkn hb hx
  refine ⟨fun m n => (C92_no_failure ho hcol hs' hh' hS _ (hord' m) n).2, ?_⟩
  obtain ⟨M, hM⟩ := C92_ends ho hcol hs' hh' hS s hord' hfair
  exact ⟨M, fun m hm => (C92_installed ho hcol hs' hh' hS _ (hord' m) (hM m hm)).1⟩

end Hoisted
namespace Iso
open Hoisted (Bytes Pkgs XOpts EmptyModules offline)
variable {P S : Type} [DecidableEq S]
variable {env : Tar.Env} {build : Bytes → Option (Bool × Bool)} {pr : Bytes → Bytes} {pk : Pkgs P} {v : Env} {g : Graph Str P S} {o : XOpts}
  {fetch : P → Option Tar.Integrity × Option (List Tar.Ev)} {tar : P → Bytes} {fs : Tar.FS}

/-- one step of the isolated linker -/
theorem filed_lstep (ho : ∀ f, (env.ord f).Perm f) (hcol : Tar.NoCol env) (h : Start env build pr pk v g o fetch tar fs) {w : LRun}
    (hI : LInv env pk v g o fetch tar fs w) (hf : Tar.Filed env (jobsFor o v g fetch) w.runs) (n : Nat) :
    Tar.Filed env (jobsFor o v g fetch) (w.step env build o v g fetch n).runs ∧
    ∀ i, Tar.InCache env i w.runs.fs → Tar.InCache env i (w.step env build o v g fetch n).runs.fs := by
  have hstep := Tar.filed_runs_step (n := n) ho hcol (ready_of h) hI.fine hf
  have hid : Tar.Filed env (jobsFor o v g fetch) w.runs ∧ ∀ i, Tar.InCache env i w.runs.fs → Tar.InCache env i w.runs.fs := ⟨hf, fun _ h => h⟩
  unfold LRun.step
  split
  · split
    · split
      · exact hid
      · split
        · exact hid
        · exact hstep
    · split
      · exact hid
      · split
        · exact hid
        · split <;> exact hid
        · exact hstep
    · exact hid
    · split <;> exact hid
    · split
      · exact hid
      · rename_i c fs' hm
        obtain ⟨d, rfl⟩ := Tar.mkdirp_eq hm
        have hk : ∀ i, Tar.InCache env i w.runs.fs → Tar.InCache env i { w.runs.fs with dirs := d } := fun i hi => hi
        exact ⟨fun m j hj => Tar.filed_other hk (hf m j hj), hk⟩
    · split
      · exact hid
      · split <;> exact hid
    · exact hid
  · exact hid

/-- C97, isolated linker: at every moment of a first install, every package extracted so far that has an integrity is in the cache,
and nothing is lost from the cache. -/
theorem C97_cached (ho : ∀ f, (env.ord f).Perm f) (hcol : Tar.NoCol env) (hs : Tar.Sane fs) (hh : Tar.Honest env fs)
    (h : Start env build pr pk v g o fetch tar fs) (hc : o.cache = true) (sched : List Nat) :
    (∀ i nd b k, i ≠ 0 → g.nodes[i]? = some nd → ((LRun.init o fs).run env build o v g fetch sched).phase i = .finished b →
      (fetch nd.pkg).1 = some k → Tar.InCache env k ((LRun.init o fs).run env build o v g fetch sched).runs.fs) ∧
    ∀ k, Tar.InCache env k fs → Tar.InCache env k ((LRun.init o fs).run env build o v g fetch sched).runs.fs := by
  have hI := linv_run ho hcol h (linv_init hs hh h) sched
  have key : Tar.Filed env (jobsFor o v g fetch) ((LRun.init o fs).run env build o v g fetch sched).runs ∧
      ∀ k, Tar.InCache env k fs → Tar.InCache env k ((LRun.init o fs).run env build o v g fetch sched).runs.fs := by
    clear hI
    induction sched using List.reverseRecOn with
    | nil => exact ⟨Tar.filed_init, fun _ h => h⟩
    | append_singleton l n ih =>
      rw [lrun_snoc]
      obtain ⟨h1, h2⟩ := filed_lstep (build := build) ho hcol h (linv_run ho hcol h (linv_init hs hh h) l) ih.1 n
      exact ⟨h1, fun k hk => h2 k (ih.2 k hk)⟩
  refine ⟨fun i nd b k h0 hi hp hk => ?_, key.2⟩
  have hj : jobsFor o v g fetch i = some ⟨o.root ++ nmWord :: home v g i, o.cache, o.mode, (fetch nd.pkg).1, (fetch nd.pkg).2⟩ := by
    unfold jobsFor
    rw [if_neg h0, hi]
    rfl
  have hph := hI.phase i (lt_of_pkg ⟨h0, nd, hi⟩)
  rw [hp] at hph
  rcases hph with ⟨hx, _⟩ | ⟨_, _, d, hd⟩
  · exact absurd hx h0
  · have h3 := key.1 i _ hj
    have h4 := hI.fine.pc i _ hj
    rw [hd] at h3 h4
    have h5 : d = k := by
      have h4 : d = ((fetch nd.pkg).1).getD _ := h4
      rw [hk] at h4
      exact h4
    rw [h5] at h3
    exact h3 hc

/-- C97, isolated linker: once an install with a cache is over, a project made of the same packages is installed without the network. -/
theorem C97_offline (ho : ∀ f, (env.ord f).Perm f) (hcol : Tar.NoCol env) (hs : Tar.Sane fs) (hh : Tar.Honest env fs)
    (h : Start env build pr pk v g o fetch tar fs) (hc : o.cache = true) (hint : ∀ i nd, i ≠ 0 → g.nodes[i]? = some nd → (fetch nd.pkg).1 ≠ none)
    (sched : List Nat)
    (hend : ∀ i nd, g.nodes[i]? = some nd → ∃ x, ((LRun.init o fs).run env build o v g fetch sched).phase i = .finished x)
    {g' : Graph Str P S} {o' : XOpts} {fs' : Tar.FS}
    (hk : Tar.CacheKept env ((LRun.init o fs).run env build o v g fetch sched).runs.fs fs') (hs' : Tar.Sane fs') (hh' : Tar.Honest env fs')
    (hg' : Installable pk v g') (hb' : EmptyModules o'.root fs') (hc' : o'.cache = true)
    (hpk : ∀ i nd, i ≠ 0 → g'.nodes[i]? = some nd → ∃ k nd', k ≠ 0 ∧ g.nodes[k]? = some nd' ∧ nd'.pkg = nd.pkg)
    (s : Nat → Nat) (hfair : ∀ i nd, g'.nodes[i]? = some nd → ∀ N, ∃ m, N ≤ m ∧ s m = i) :
    (∀ m n nd, g'.nodes[n]? = some nd →
      ((LRun.init o' fs').run env build o' v g' (offline fetch) ((List.range m).map s)).phase n ≠ .failed) ∧
    ∃ M, ∀ m, M ≤ m →
      Exact pk v g' (seen pr o'.root ((LRun.init o' fs').run env build o' v g' (offline fetch) ((List.range m).map s)).runs.fs
        ((LRun.init o' fs').run env build o' v g' (offline fetch) ((List.range m).map s)).links) := by
  have hS : Start env build pr pk v g' o' (offline fetch) tar fs' := {
    tree := hg'
    bare := hb'
    packages := fun i nd j h0 hi hj => by
      obtain ⟨k, nd', hk0, hkn, he⟩ := hpk i nd h0 hi
      obtain ⟨x, hx⟩ := Option.ne_none_iff_exists'.1 (hint k nd' hk0 hkn)
      obtain ⟨b, hb⟩ := hend k nd' hkn
      have hin := Tar.incache_kept hk ((C97_cached ho hcol hs hh h hc sched).1 k nd' b x hk0 hkn hb hx)
      unfold jobsFor at hj
      rw [if_neg h0, hi] at hj
      cases hj
      have hob := h.packages k nd' ⟨o.root ++ nmWord :: home v g k, o.cache, o.mode, (fetch nd'.pkg).1, (fetch nd'.pkg).2⟩ hk0 hkn
        (by unfold jobsFor; rw [if_neg hk0, hkn]; rfl)
      rw [he] at hob hx
      exact obtainable_offline hob hx hx hc' hin
    packed := fun i nd h0 hi => by
      obtain ⟨k, nd', hk0, hkn, he⟩ := hpk i nd h0 hi
      rw [← he]
      exact h.packed k nd' hk0 hkn
    built := fun i nd h0 hi => by
      obtain ⟨k, nd', hk0, hkn, he⟩ := hpk i nd h0 hi
      rw [← he]
      exact h.built k nd' hk0 hkn
    sight := h.sight
    reading := h.reading }
  refine ⟨fun m n nd hn => (C93_no_failure ho hcol hs' hh' hS _ n nd hn).1, ?_⟩
  obtain ⟨M, hM⟩ := C93_ends ho hcol hs' hh' hS s hfair
  exact ⟨M, fun m hm => (C93_installed ho hcol hs' hh' hS _ (hM m hm)).1⟩

end Iso
end Oro
