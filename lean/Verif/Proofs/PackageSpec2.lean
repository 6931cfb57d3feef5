import Verif.Proofs.PackageSpec
import Verif.Spec.PackageSpec
/- Shapes of parsed specifiers and the round trip. -/

set_option linter.unusedSectionVars false

namespace Oro
namespace PSpec

variable {V R U : Type}

/-! ### shapes -/

def CommShape (c : Option Str) (s : Option R) : Prop := c = none ∨ (s = none ∧ ∃ t, c = some t ∧ safe t = true)

structure ScpShape (user : Option Str) (host : Str) (path : Option Str) : Prop where
  hu : ∀ u, user = some u → u ≠ [] ∧ '@' ∉ u
  hh : host ≠ [] ∧ ':' ∉ host ∧ '#' ∉ host
  hp : ∀ p, path = some p → p ≠ [] ∧ '#' ∉ p
  noUser : user = none → host.head? = some '@' ∨ ('@' ∉ host ∧ ∀ p, path = some p → '@' ∉ p)

def GitShape (E : SpecEnv V R U) : GitInfo R U → Prop
  | .hosted o r _ c s none => o ≠ [] ∧ safe o = true ∧ '#' ∉ r ∧ CommShape c s
  | .hosted _ _ _ c s (some _) => CommShape c s
  | .url u c s => CommShape c s ∧ urlInfo E u (c, s) [] = .ok [] (.url u c s)
  | .ssh t c s => CommShape c s ∧ ∃ user host path, ScpShape user host path ∧ t = scpRaw user host path ∧
      (scpInfo user host path (c, s) : GitInfo R U) = .ssh t c s

def NpmShape (E : SpecEnv V R U) (sc : Option Str) (m : Str) (req : Option (VersionSpec V R)) : Prop :=
  ∃ n, m = fullName sc n ∧ n ≠ [] ∧ safe n = true ∧ (∀ x, sc = some x → x ≠ [] ∧ safe x = true) ∧
    ∀ t, req = some (.tag t) → t ≠ [] ∧ safe t = true ∧ E.parseV t = none ∧ E.parseR t = none

def AliasShape (m : Str) : Prop :=
  ∃ sc n, m = aliasName sc n ∧ n ≠ [] ∧ safe n = true ∧
    ∀ x, sc = some x → ∃ y, (x = y ∨ x = '@' :: y) ∧ y ≠ [] ∧ safe y = true

/-! ### inversion -/

theorem committish_inv {E : SpecEnv V R U} {s r : Str} {x : Option Str × Option R} (h : committish E s = .ok r x) :
    CommShape x.1 x.2 ∧ (r = [] ∨ (r = s ∧ x = (none, none))) := by
  unfold committish at h
  obtain ⟨o, ho, rfl⟩ := map_ok.mp h
  rcases opt_ok.mp ho with ⟨a, rfl, ha⟩ | ⟨rfl, rfl, _⟩
  · obtain ⟨r1, _, _, h2⟩ := bind_ok.mp ha
    unfold commBody at h2
    rcases alt_ok.mp h2 with h3 | ⟨_, h3⟩
    · obtain ⟨r2, _, _, h4⟩ := bind_ok.mp h3
      obtain ⟨q, hq, rfl⟩ := map_ok.mp h4
      refine ⟨Or.inl rfl, Or.inl ?_⟩
      exact (wholeRes_ok.mp (cut_ok.mp hq)).1
    · split at h3
      · next hs => cases h3; exact ⟨Or.inr ⟨rfl, r1, rfl, hs⟩, Or.inl rfl⟩
      · cases h3
  · exact ⟨Or.inl rfl, Or.inr ⟨rfl, rfl⟩⟩

theorem takeTill1_inv {q : Char} {s r a : Str} (h : takeTill1 (· == q) s = .ok r a) :
    a ≠ [] ∧ s = a ++ r ∧ q ∉ a ∧ (r = [] ∨ ∃ r', r = q :: r') := by
  obtain ⟨h1, h2, h3, h4⟩ := takeTill1_ok.mp h
  refine ⟨h1, h2, fun hq => by simpa using h3 q hq, ?_⟩
  cases r with
  | nil => exact Or.inl rfl
  | cons c r => exact Or.inr ⟨r, by simpa using h4 c rfl⟩

theorem safe_notMem {s : Str} {c : Char} (h : safe s = true) (hc : safeChar c = false) : c ∉ s := fun hm => by
  have := List.all_eq_true.mp h c hm
  rw [hc] at this; cases this

theorem gitShorthand_inv {E : SpecEnv V R U} {s : Str} {i : GitInfo R U} (h : gitShorthand E s = .ok [] i) :
    GitShape E i := by
  unfold gitShorthand at h
  obtain ⟨s1, hh, _, h⟩ := bind_ok.mp h
  obtain ⟨s2, owner, ho, h⟩ := bind_ok.mp h
  obtain ⟨s3, _, _, h⟩ := bind_ok.mp h
  obtain ⟨s4, c, hc, h⟩ := bind_ok.mp h
  cases h
  obtain ⟨hs, ht⟩ := safeTill1_ok.mp ho
  obtain ⟨h1, _, _, _⟩ := takeTill1_ok.mp ht
  refine ⟨h1, hs, fun hm => ?_, (committish_inv hc).1⟩
  have := List.all_eq_true.mp (List.all_takeWhile (p := fun c : Char => c != '#') (l := s3)) _ hm
  simp at this

theorem urlInfo_shape {E : SpecEnv V R U} {u : U} {c : Option Str × Option R} {i : GitInfo R U} {r : Str}
    (hc : CommShape c.1 c.2) (h : urlInfo E u c r = .ok [] i) : GitShape E i := by
  have h0 := h
  unfold urlInfo at h
  split at h
  · split at h
    · cases h
    · split at h
      · cases h; exact hc
      · cases h; exact ⟨hc, h0⟩
  · cases h; exact ⟨hc, h0⟩

theorem gitUrl_inv {E : SpecEnv V R U} {s : Str} {i : GitInfo R U} (h : gitUrl E s = .ok [] i) :
    GitShape E i := by
  unfold gitUrl at h
  obtain ⟨s1, _, _, h⟩ := bind_ok.mp h
  obtain ⟨s2, t, ht, h⟩ := bind_ok.mp h
  split at h
  · cases h
  · obtain ⟨s3, c, hc, h⟩ := bind_ok.mp h
    exact urlInfo_shape (committish_inv hc).1 h

theorem scpUser_err {s : Str} (h : scpUser s = .err) : s.head? = some '@' ∨ '@' ∉ s := by
  by_cases hm : '@' ∈ s
  · left
    obtain ⟨a, r, rfl, ha⟩ : ∃ a r, s = a ++ '@' :: r ∧ '@' ∉ a := by
      obtain ⟨a, r, h1, h2⟩ := List.append_of_mem hm |> fun _ => List.eq_append_cons_of_mem hm
      exact ⟨a, r, h1, h2⟩
    cases a with
    | nil => rfl
    | cons c a =>
      exfalso
      have : takeTill1 (· == '@') (c :: a ++ '@' :: r) = .ok ('@' :: r) (c :: a) :=
        takeTill1_ok.mpr ⟨by simp, rfl, fun x hx => by
          simp only [beq_eq_false_iff_ne]; rintro rfl; exact ha hx, by simp⟩
      simp only [scpUser, this] at h
      simp [Res.bind, tag_at] at h
  · exact Or.inr hm

theorem gitScp_inv {E : SpecEnv V R U} {s : Str} {i : GitInfo R U} (h : gitScp E s = .ok [] i) :
    GitShape E i := by
  unfold gitScp at h
  obtain ⟨s1, _, _, h⟩ := bind_ok.mp h
  obtain ⟨s2, _, _, h⟩ := bind_ok.mp h
  obtain ⟨s3, user, hu, h⟩ := bind_ok.mp h
  obtain ⟨s4, host, hh, h⟩ := bind_ok.mp h
  obtain ⟨s5, path, hp, h⟩ := bind_ok.mp h
  obtain ⟨s6, c, hc, h⟩ := bind_ok.mp h
  cases h
  obtain ⟨hcs, hrest⟩ := committish_inv hc
  obtain ⟨hh1, hh2, hh3, hh4⟩ := takeTill1_ok.mp hh
  have hhc : ':' ∉ host := fun hm => by simpa using hh3 _ hm
  have hhh : '#' ∉ host := fun hm => by simpa using hh3 _ hm
  have hpp : ∀ p, path = some p → p ≠ [] ∧ '#' ∉ p ∧ s4 = ':' :: (p ++ s5) := by
    rintro p rfl
    rcases opt_ok.mp hp with ⟨a, ⟨⟩, ha⟩ | ⟨⟨⟩, _⟩
    obtain ⟨r1, _, h1, h2⟩ := bind_ok.mp ha
    obtain ⟨h3, rfl, h4, _⟩ := takeTill1_inv h2
    refine ⟨h3, h4, ?_⟩
    rw [tag_colon] at h1
    split at h1
    · split at h1
      · next hd => cases h1; rw [hd]
      · cases h1
    · cases h1
  have hshape : ScpShape user host path := by
    refine ⟨?_, ⟨hh1, hhc, hhh⟩, fun p h => ⟨(hpp p h).1, (hpp p h).2.1⟩, ?_⟩
    · rintro u rfl
      rcases opt_ok.mp hu with ⟨a, ⟨⟩, ha⟩ | ⟨⟨⟩, _⟩
      obtain ⟨r1, _, h1, h2⟩ := bind_ok.mp ha
      obtain ⟨r2, _, h3, h4⟩ := bind_ok.mp h2
      cases h4
      obtain ⟨h5, _, h6, _⟩ := takeTill1_inv h1
      exact ⟨h5, h6⟩
    · rintro rfl
      rcases opt_ok.mp hu with ⟨a, ⟨⟩, ha⟩ | ⟨_, rfl, he⟩
      rcases scpUser_err he with h1 | h1
      · left
        rw [hh2] at h1
        cases host with
        | nil => exact absurd rfl hh1
        | cons c host => simpa using h1
      · right
        rw [hh2] at h1
        refine ⟨fun h => h1 (List.mem_append_left _ h), fun p hp' h => h1 ?_⟩
        rw [(hpp p hp').2.2]
        simp [h]
  have hshow : ∀ (x : GitInfo R U), x = scpInfo user host path c → GitShape E x := by
    intro x hx
    have : (∃ o r h, x = .hosted o r h c.1 c.2 (some (scpRaw user host path))) ∨ x = .ssh (scpRaw user host path) c.1 c.2 := by
      subst hx
      unfold scpInfo
      split
      · split
        · exact Or.inl ⟨_, _, _, rfl⟩
        · exact Or.inr rfl
      · exact Or.inr rfl
    rcases this with ⟨o, r, h, rfl⟩ | rfl
    · exact hcs
    · exact ⟨hcs, user, host, path, hshape, rfl, hx.symm⟩
  exact hshow _ rfl

theorem gitSpec_inv {E : SpecEnv V R U} {s : Str} {a : PackageSpec V R U} (h : gitSpec E s = .ok [] a) :
    ∃ i, a = .git i ∧ GitShape E i := by
  unfold gitSpec at h
  obtain ⟨i, hi, rfl⟩ := map_ok.mp h
  refine ⟨i, rfl, ?_⟩
  rcases alt_ok.mp hi with h1 | ⟨_, h1⟩
  · exact gitShorthand_inv h1
  · rcases alt_ok.mp h1 with h2 | ⟨_, h2⟩
    · exact gitUrl_inv h2
    · exact gitScp_inv h2

theorem pathSpec_inv {E : SpecEnv V R U} {s r : Str} {a : PackageSpec V R U} (h : pathSpec E s = .ok r a) :
    r = [] ∧ a = .dir s := by
  unfold pathSpec at h
  obtain ⟨p, hp, rfl⟩ := map_ok.mp h
  rcases alt_ok.mp hp with h1 | ⟨_, h1⟩
  · unfold relativePath at h1
    obtain ⟨_, _, _, h1⟩ := bind_ok.mp h1
    obtain ⟨_, _, _, h1⟩ := bind_ok.mp h1
    cases h1; exact ⟨rfl, rfl⟩
  · unfold absolutePath at h1
    obtain ⟨_, _, _, h1⟩ := bind_ok.mp h1
    obtain ⟨_, _, _, h1⟩ := bind_ok.mp h1
    obtain ⟨_, _, _, h1⟩ := bind_ok.mp h1
    cases h1; exact ⟨rfl, rfl⟩

theorem filePath_inv {E : SpecEnv V R U} {s r : Str} {a : PackageSpec V R U} (h : filePath E s = .ok r a) :
    ∃ p, a = .dir p ∧ pathSpec E p = .ok [] (.dir p) := by
  unfold filePath at h
  obtain ⟨s1, _, _, h⟩ := bind_ok.mp h
  obtain ⟨rfl, rfl⟩ := pathSpec_inv h
  exact ⟨s1, rfl, h⟩

theorem npmScope_inv {s r x : Str} (h : npmScope s = .ok r x) : x ≠ [] ∧ safe x = true := by
  unfold npmScope at h
  obtain ⟨s1, _, _, h⟩ := bind_ok.mp h
  obtain ⟨s2, sc, h1, h⟩ := bind_ok.mp h
  obtain ⟨h2, h3⟩ := safeTill1_ok.mp h1
  obtain ⟨h4, _⟩ := takeTill1_ok.mp h3
  split at h
  · cases h; exact ⟨h4, h2⟩
  · cases h

theorem versionReq_inv {E : SpecEnv V R U} {s r : Str} {q : VersionSpec V R} (h : versionReq E s = .ok r q) :
    ∀ t, q = .tag t → t ≠ [] ∧ safe t = true ∧ E.parseV t = none ∧ E.parseR t = none := by
  rintro t rfl
  unfold versionReq at h
  rcases alt_ok.mp h with h1 | ⟨h1, h⟩
  · obtain ⟨_, _, ⟨⟩⟩ := map_ok.mp h1
  rcases alt_ok.mp h with h2 | ⟨h2, h⟩
  · obtain ⟨_, _, ⟨⟩⟩ := map_ok.mp h2
  obtain ⟨t', h3, ⟨⟩⟩ := map_ok.mp h
  rw [safeWhole_eq] at h3
  split at h3
  · cases h3
  · next hne =>
    split at h3
    · next hs =>
      cases h3
      refine ⟨hne, hs, ?_, ?_⟩
      · cases hv : E.parseV s with
        | none => rfl
        | some v =>
          have : wholeRes E.parseV s = .ok [] v := wholeRes_ok.mpr ⟨rfl, hne, hv⟩
          simp [this, Res.map, Res.bind] at h1
      · cases hv : E.parseR s with
        | none => rfl
        | some v =>
          have : wholeRes E.parseR s = .ok [] v := wholeRes_ok.mpr ⟨rfl, hne, hv⟩
          simp [this, Res.map, Res.bind] at h2
    · cases h3

theorem npmSpec_inv {E : SpecEnv V R U} {s r : Str} {a : PackageSpec V R U} (h : npmSpec E s = .ok r a) :
    ∃ sc m req, a = .npm sc m req ∧ NpmShape E sc m req := by
  unfold npmSpec at h
  obtain ⟨s1, sc, h1, h⟩ := bind_ok.mp h
  obtain ⟨s2, n, h2, h⟩ := bind_ok.mp h
  obtain ⟨s3, req, h3, h⟩ := bind_ok.mp h
  cases h
  obtain ⟨hn, hn'⟩ := safeTill1_ok.mp h2
  obtain ⟨hn'', _⟩ := takeTill1_ok.mp hn'
  refine ⟨sc, _, req, rfl, n, rfl, hn'', hn, ?_, ?_⟩
  · rintro x rfl
    rcases opt_ok.mp h1 with ⟨_, ⟨⟩, h⟩ | ⟨⟨⟩, _⟩
    exact npmScope_inv h
  · rintro t rfl
    rcases opt_ok.mp h3 with ⟨_, ⟨⟩, h⟩ | ⟨⟨⟩, _⟩
    obtain ⟨_, _, _, h⟩ := bind_ok.mp h
    exact versionReq_inv (cut_ok.mp h) t rfl

/-- The shape of everything `prefixed_package_spec` returns. -/
def InnerShape (E : SpecEnv V R U) : PackageSpec V R U → Prop
  | .dir p => pathSpec E p = .ok [] (.dir p)
  | .git i => GitShape E i
  | .npm sc m req => NpmShape E sc m req
  | .alias _ _ => False

theorem prefixedSpec_inv {E : SpecEnv V R U} {s : Str} {a : PackageSpec V R U} (h : prefixedSpec E s = .ok [] a) :
    InnerShape E a := by
  unfold prefixedSpec at h
  rcases alt_ok.mp h with h1 | ⟨_, h⟩
  · obtain ⟨p, rfl, hp⟩ := filePath_inv h1; exact hp
  rcases alt_ok.mp h with h1 | ⟨_, h⟩
  · obtain ⟨p, rfl, hp⟩ := gitSpec_inv h1; exact hp
  obtain ⟨_, _, _, h⟩ := bind_ok.mp h
  obtain ⟨sc, m, req, rfl, hp⟩ := npmSpec_inv h; exact hp

theorem aliasScope_inv {s r x : Str} (h : aliasScope s = .ok r x) :
    ∃ y, (x = y ∨ x = '@' :: y) ∧ y ≠ [] ∧ safe y = true := by
  unfold aliasScope at h
  obtain ⟨s1, o, _, h⟩ := bind_ok.mp h
  obtain ⟨s2, sc, h1, h⟩ := bind_ok.mp h
  obtain ⟨s3, _, _, h⟩ := bind_ok.mp h
  cases h
  obtain ⟨h2, h3⟩ := safeTill1_ok.mp h1
  obtain ⟨h4, _⟩ := takeTill1_ok.mp h3
  refine ⟨sc, ?_, h4, h2⟩
  cases o <;> simp

/-- The shape of everything the parser returns. -/
def Shape (E : SpecEnv V R U) : PackageSpec V R U → Prop
  | .alias m a => AliasShape m ∧ InnerShape E a
  | a => InnerShape E a

theorem packageSpec_inv {E : SpecEnv V R U} {s : Str} {a : PackageSpec V R U} (h : packageSpec E s = .ok [] a) :
    Shape E a := by
  unfold packageSpec at h
  rcases alt_ok.mp h with h1 | ⟨_, h⟩
  · unfold aliasSpec at h1
    obtain ⟨s1, sc, h2, h1⟩ := bind_ok.mp h1
    obtain ⟨s2, n, h3, h1⟩ := bind_ok.mp h1
    obtain ⟨s3, _, _, h1⟩ := bind_ok.mp h1
    obtain ⟨b, h4, rfl⟩ := map_ok.mp h1
    obtain ⟨hn, hn'⟩ := safeTill1_ok.mp h3
    obtain ⟨hn'', _⟩ := takeTill1_ok.mp hn'
    refine ⟨⟨sc, n, rfl, hn'', hn, ?_⟩, prefixedSpec_inv h4⟩
    rintro x rfl
    rcases opt_ok.mp h2 with ⟨_, ⟨⟩, h⟩ | ⟨⟨⟩, _⟩
    exact aliasScope_inv h
  rcases alt_ok.mp h with h1 | ⟨_, h⟩
  · obtain ⟨p, rfl, hp⟩ := filePath_inv h1; exact hp
  rcases alt_ok.mp h with h1 | ⟨_, h⟩
  · obtain ⟨p, rfl, hp⟩ := gitSpec_inv h1; exact hp
  obtain ⟨_, _, _, h⟩ := bind_ok.mp h
  obtain ⟨sc, m, req, rfl, hp⟩ := npmSpec_inv h; exact hp

end PSpec
end Oro
