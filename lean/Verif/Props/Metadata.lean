import Verif.Model.Metadata
/-
C44: reduced and full metadata agree.
-/
set_option linter.unusedSectionVars false
namespace Oro
namespace Meta
variable {V B D M X T Y : Type} [Inhabited M] [Inhabited X] [Inhabited T] [Inhabited Y] [DecidableEq V]

/-- two descriptions of a version say the same of everything an installation uses -/
structure SameVersion (a b : Version V B D M X T) : Prop where
  name : a.manifest.name = b.manifest.name
  version : a.manifest.version = b.manifest.version
  dependencies : a.manifest.dependencies = b.manifest.dependencies
  devDependencies : a.manifest.devDependencies = b.manifest.devDependencies
  optionalDependencies : a.manifest.optionalDependencies = b.manifest.optionalDependencies
  peerDependencies : a.manifest.peerDependencies = b.manifest.peerDependencies
  bundled : a.manifest.bundled = b.manifest.bundled
  tarball : a.dist.tarball = b.dist.tarball
  integrity : a.dist.integrity = b.dist.integrity
  shasum : a.dist.shasum = b.dist.shasum
  signature : a.dist.signature = b.dist.signature
  hasShrinkwrap : a.hasShrinkwrap = b.hasShrinkwrap

/-- C44: to the reduced form and back. The tags are the same, the same versions are there, and each says the same. -/
theorem C44_full (p : Packument V B D M X T Y) :
    let q : Packument V B D M X T Y := p.corgi.full
    q.tags = p.tags ∧ (∀ v, (q.versions.get? v).isSome ↔ (p.versions.get? v).isSome) ∧
    ∀ v a b, p.versions.get? v = some a → q.versions.get? v = some b → SameVersion a b := by
  have hg : ∀ v, (p.corgi.full : Packument V B D M X T Y).versions.get? v = (p.versions.get? v).map fun e => e.corgi.full := by
    intro v
    have e1 : (p.corgi.full : Packument V B D M X T Y).versions = p.versions.map fun e => (e.1, e.2.corgi.full) := by
      simp [CPackument.full, Packument.corgi, List.map_map, Function.comp_def]
    rw [e1]
    exact IMap.get?_map (fun e : Version V B D M X T => (e.corgi.full : Version V B D M X T)) p.versions v
  refine ⟨rfl, ?_, ?_⟩
  · intro v; rw [hg]; simp
  · intro v a b ha hb
    rw [hg, ha] at hb
    cases hb
    constructor <;> rfl

/-- C44: the reduced form has the same tags and versions, and says the same of each, deprecation included. -/
theorem C44_reduce (p : Packument V B D M X T Y) :
    p.corgi.tags = p.tags ∧ (∀ v, (p.corgi.versions.get? v).isSome ↔ (p.versions.get? v).isSome) ∧
    ∀ v a b, p.versions.get? v = some a → p.corgi.versions.get? v = some b →
      b.deprecated = a.deprecated ∧ b.hasShrinkwrap = a.hasShrinkwrap ∧ b.dist.tarball = a.dist.tarball ∧
      b.dist.integrity = a.dist.integrity ∧ b.dist.shasum = a.dist.shasum ∧ b.dist.signature = a.dist.signature ∧
      b.manifest.name = a.manifest.name ∧ b.manifest.version = a.manifest.version ∧
      b.manifest.dependencies = a.manifest.dependencies ∧ b.manifest.devDependencies = a.manifest.devDependencies ∧
      b.manifest.optionalDependencies = a.manifest.optionalDependencies ∧
      b.manifest.peerDependencies = a.manifest.peerDependencies ∧ b.manifest.bundled = a.manifest.bundled := by
  have hg : ∀ v, p.corgi.versions.get? v = (p.versions.get? v).map fun e => e.corgi := by
    intro v
    exact IMap.get?_map (fun e : Version V B D M X T => e.corgi) p.versions v
  refine ⟨rfl, ?_, ?_⟩
  · intro v; rw [hg]; simp
  · intro v a b ha hb
    rw [hg, ha] at hb
    cases hb
    exact ⟨rfl, rfl, rfl, rfl, rfl, rfl, rfl, rfl, rfl, rfl, rfl, rfl, rfl⟩

/-- a reduced packument without deprecation notes -/
def undeprecated (p : CPackument V B D) : CPackument V B D := { p with versions := p.versions.map fun e => (e.1, { e.2 with deprecated := none }) }

/-- C44: to the full form and back gives the same, but for the deprecation notes, which are lost. -/
theorem C44_corgi (p : CPackument V B D) : (p.full : Packument V B D M X T Y).corgi = undeprecated p := by
  simp [CPackument.full, Packument.corgi, undeprecated, CVersion.full, Version.corgi, CDist.full, Dist.corgi, CManifest.full,
    Manifest.corgi]

/-- C44: so it gives the same exactly if no version is deprecated. -/
theorem C44_corgi_iff (p : CPackument V B D) :
    (p.full : Packument V B D M X T Y).corgi = p ↔ ∀ e ∈ p.versions, e.2.deprecated = none := by
  rw [C44_corgi]
  have : undeprecated p = p ↔ (undeprecated p).versions = p.versions := by
    constructor
    · intro h; rw [h]
    · intro h; cases p; simp only [undeprecated] at h ⊢; rw [h]
  rw [this]
  constructor
  · intro h e he
    have hx := List.map_inj_left.1 (show p.versions.map (fun e => (e.1, { e.2 with deprecated := none })) = p.versions.map id by
      rw [List.map_id]; exact h) e he
    have := congrArg (fun x : V × CVersion V B D => x.2.deprecated) hx
    exact this.symm
  · intro h
    show p.versions.map (fun e => (e.1, { e.2 with deprecated := none })) = p.versions
    conv_rhs => rw [← List.map_id p.versions]
    refine List.map_inj_left.2 ?_
    intro e he
    have := h e he
    obtain ⟨v, d, s, m, dep⟩ := e
    simp only at this
    rw [this]; rfl

/-- C44 (packages in folders): the reduced packument of a folder is the full one reduced. -/
theorem C44_folder (zero : V) (folder : Option Str) (m : Manifest V B M) :
    (m.corgi.dirPackument zero folder : Option (CPackument V B D)) =
      (m.dirPackument zero folder : Option (Packument V B D M X T Y)).map Packument.corgi := by
  unfold CManifest.dirPackument Manifest.dirPackument CManifest.dirMetadata Manifest.dirMetadata
  have : m.corgi.name = m.name := rfl
  rw [this]
  cases m.name.or folder with
  | none => rfl
  | some n => rfl

/-- C44 (packages in folders): there is exactly one version, the manifest's (or 0.0.0), tagged latest; its name is the
manifest's, or the folder's. -/
theorem C44_folder_version (zero : V) (folder : Option Str) (m : CManifest V B) :
    (m.dirPackument zero folder : Option (CPackument V B D)) = none ↔ m.name = none ∧ folder = none := by
  unfold CManifest.dirPackument CManifest.dirMetadata
  simp

/-- what it is -/
theorem C44_folder_value (zero : V) (folder : Option Str) (m : CManifest V B) {p : CPackument V B D} (h : m.dirPackument zero folder = some p) :
    ∃ md, p.versions = [(m.version.getD zero, md)] ∧ p.tags = [(latest, m.version.getD zero)] ∧
      md.manifest.name = m.name.or folder ∧ md.manifest.version = some (m.version.getD zero) ∧
      md.manifest.dependencies = m.dependencies ∧ md.manifest.optionalDependencies = m.optionalDependencies := by
  unfold CManifest.dirPackument CManifest.dirMetadata at h
  cases hn : m.name.or folder with
  | none => rw [hn] at h; cases h
  | some n =>
    rw [hn] at h
    cases h
    exact ⟨_, rfl, rfl, rfl, rfl, rfl, rfl⟩

/-- a deprecated version exists for which the second theorem is not an identity -/
example : ∃ p : CPackument Nat Nat Nat, (p.full : Packument Nat Nat Nat Nat Nat Nat Nat).corgi ≠ p :=
  ⟨⟨[(1, ⟨⟨none, none, none, none⟩, none, ⟨none, none, [], [], [], [], none⟩, some 5⟩)], []⟩, by
    rw [Ne, C44_corgi_iff]; simp⟩

end Meta
end Oro
