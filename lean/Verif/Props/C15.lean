import Verif.Lemmas.Sector
import Mathlib.Analysis.SpecialFunctions.Trigonometric.Basic

/-!
# C15: inSector is membership in the half-open sector
-/

namespace Verif.C15

open Vec Real

variable {T : Type*} [CommRing T] [LinearOrder T] [IsStrictOrderedRing T]
variable {K : Type*} [Field K] [LinearOrder K] [IsStrictOrderedRing K]

/-- Let `end` be obtained from `begin` by a counterclockwise turn by `Θ`, strictly between zero and a full turn. Then
`v.inSector(begin, end)` returns whether `v` is obtained from `begin` by a counterclockwise turn by at least zero and
less than `Θ`. Here `f` says which real numbers the coordinates are. -/
theorem inSector_correct (f : T →+* ℝ) (hf : StrictMono f) (A : Option (Approx T K)) {v b e : Vec T} (hv : v ≠ 0)
    (hb : b ≠ 0) (he : e ≠ 0) {Θ : ℝ} (h0 : 0 < Θ) (h1 : Θ < 2 * π) (hbe : Turns (b.map f) Θ (e.map f)) :
    ∃ r, inSector A v b e = .ok r ∧
      (r = true ↔ ∃ θ, 0 ≤ θ ∧ θ < Θ ∧ Turns (b.map f) θ (v.map f)) := by
  obtain ⟨θ, g0, g1, hbv⟩ := exists_turns (map_ne_zero f hf hb) (map_ne_zero f hf hv)
  refine ⟨_, inSector_angle f hf A hv hb he ⟨g0, g1⟩ ⟨h0.le, h1⟩ hbv hbe, ?_⟩
  rw [decide_eq_true_eq, if_neg h0.ne']
  constructor
  · intro h
    exact ⟨θ, g0, h, hbv⟩
  · rintro ⟨θ', k0, k1, hbv'⟩
    rwa [Turns.unique (map_ne_zero f hf hb) ⟨g0, g1⟩ ⟨k0, k1.trans h1⟩ hbv hbv']

/-- If `begin` and `end` point in the same direction, the sector consists of that direction only. -/
theorem inSector_same (A : Option (Approx T K)) {v b e : Vec T} (hv : v ≠ 0) (hb : b ≠ 0) (he : e ≠ 0)
    (h : SameDirection b e) : ∃ r, inSector A v b e = .ok r ∧ (r = true ↔ SameDirection b v) := by
  refine ⟨_, inSector_eq A hv hb he, ?_⟩
  rw [decide_eq_true_eq]
  obtain ⟨h1, h2⟩ := h
  simp [h1, h2, h2.not_gt, SameDirection]

/-- Any two vectors which do not point in the same direction are related by a turn as in `inSector_correct`. -/
theorem exists_turn (f : T →+* ℝ) (hf : StrictMono f) {b e : Vec T} (hb : b ≠ 0) (he : e ≠ 0)
    (h : ¬ SameDirection b e) : ∃ Θ, 0 < Θ ∧ Θ < 2 * π ∧ Turns (b.map f) Θ (e.map f) := by
  obtain ⟨Θ, g0, g1, hbe⟩ := exists_turns (map_ne_zero f hf hb) (map_ne_zero f hf he)
  refine ⟨Θ, lt_of_le_of_ne g0 ?_, g1, hbe⟩
  rintro rfl
  apply h
  obtain ⟨r, hr, hbe⟩ := hbe
  rw [rotate_zero] at hbe
  have e1 : f (cross b e) = 0 := by rw [← cross_map, hbe, cross_smul_right, cross_self, mul_zero]
  have e2 : 0 < f (dot b e) := by
    rw [← dot_map, hbe]
    have e : dot (b.map f) (r • b.map f) = r * dot (b.map f) (b.map f) := by simp [dot]; ring
    rw [e]
    exact mul_pos hr (dot_self_pos (map_ne_zero f hf hb))
  refine ⟨hf.injective (e1.trans (map_zero f).symm), ?_⟩
  rwa [← map_zero f, hf.lt_iff_lt] at e2

/-- A sector and its complement partition the directions. -/
theorem inSector_complement (f : T →+* ℝ) (hf : StrictMono f) (A : Option (Approx T K)) {v b e : Vec T} (hv : v ≠ 0)
    (hb : b ≠ 0) (he : e ≠ 0) (h : ¬ SameDirection b e) :
    ∃ r, inSector A v b e = .ok r ∧ inSector A v e b = .ok (!r) := by
  obtain ⟨Θ, h0, h1, hbe⟩ := exists_turn f hf hb he h
  obtain ⟨θ, g0, g1, hbv⟩ := exists_turns (map_ne_zero f hf hb) (map_ne_zero f hf hv)
  refine ⟨_, inSector_angle f hf A hv hb he ⟨g0, g1⟩ ⟨h0.le, h1⟩ hbv hbe, ?_⟩
  have rot : ∀ (u : Vec ℝ) (α β : ℝ), rotate (α + β) u = rotate α (rotate β u) := by
    intro u α β
    unfold rotate
    rw [cos_add, sin_add]
    ext <;> simp only <;> ring
  have rsm : ∀ (r α : ℝ) (u : Vec ℝ), rotate α (r • u) = r • rotate α u := by
    intro r α u
    ext <;> simp only [rotate, smul_x, smul_y] <;> ring
  have per : ∀ (u : Vec ℝ), rotate (2 * π) u = u := by
    intro u
    unfold rotate
    simp
  obtain ⟨r, hr, hbv⟩ := hbv
  obtain ⟨s, hs, hbe⟩ := hbe
  have turn : ∀ (φ ψ t : ℝ) (w : Vec ℝ), 0 < t → φ + Θ = ψ → w = t • rotate ψ (b.map f) → Turns (e.map f) φ w := by
    intro φ ψ t w ht hφ hw
    refine ⟨t / s, div_pos ht hs, ?_⟩
    rw [hw, hbe, rsm, ← rot, hφ, smul_smul, div_mul_cancel₀ _ hs.ne']
  have hper : ∀ (φ : ℝ) (u : Vec ℝ), rotate (φ + 2 * π) u = rotate φ u := by
    intro φ u; rw [rot, per]
  have heb : Turns (e.map f) (2 * π - Θ) (b.map f) := by
    refine turn _ (2 * π) 1 _ one_pos (by ring) ?_
    rw [per, one_smul]
  by_cases hlt : θ < Θ
  · have hev : Turns (e.map f) (θ - Θ + 2 * π) (v.map f) :=
      turn _ (θ + 2 * π) r _ hr (by ring) (by rw [hper]; exact hbv)
    rw [inSector_angle f hf A hv he hb ⟨by linarith, by linarith⟩ ⟨by linarith, by linarith⟩ hev heb]
    have hne : 2 * π - Θ ≠ 0 := by linarith
    have hge : ¬ θ - Θ + 2 * π < 2 * π - Θ := by linarith
    simp only [hne, h0.ne', if_false, hlt, hge, decide_true, decide_false, Bool.not_true]
  · have hev : Turns (e.map f) (θ - Θ) (v.map f) := turn _ θ r _ hr (by ring) hbv
    rw [inSector_angle f hf A hv he hb ⟨by linarith, by linarith⟩ ⟨by linarith, by linarith⟩ hev heb]
    have hne : 2 * π - Θ ≠ 0 := by linarith
    have hge : θ - Θ < 2 * π - Θ := by linarith
    simp only [hne, h0.ne', if_false, hlt, hge, decide_true, decide_false, Bool.not_false]

/-- Zero vectors are rejected. -/
theorem inSector_rejects (A : Option (Approx T K)) (v b e : Vec T) (h : v = 0 ∨ b = 0 ∨ e = 0) :
    inSector A v b e = .error .invalidArgument := by
  have hz : ∀ u : Vec T, u = 0 → u.nonzero = false := by
    rintro u rfl
    simp [nonzero]
  unfold inSector
  rw [inSectorAux]
  by_cases hb : b = 0
  · rw [hz b hb]; rfl
  by_cases he : e = 0
  · rw [hz e he, nonzero_iff.2 hb]; rfl
  have hv : v = 0 := by
    rcases h with h | h | h
    · exact h
    · exact absurd h hb
    · exact absurd h he
  rw [hz v hv, nonzero_iff.2 hb, nonzero_iff.2 he]; rfl

/-- The hypotheses are met: the sector from (1, 0) to (0, -1) has an angle of three quarters of a turn. -/
example : StrictMono (RingHom.id ℝ) ∧ (⟨1, 0⟩ : Vec ℝ) ≠ 0 ∧ (⟨0, -1⟩ : Vec ℝ) ≠ 0 ∧
    ¬ SameDirection (⟨1, 0⟩ : Vec ℝ) ⟨0, -1⟩ ∧
    Turns ((⟨1, 0⟩ : Vec ℝ).map (RingHom.id ℝ)) (π + π / 2) ((⟨0, -1⟩ : Vec ℝ).map (RingHom.id ℝ)) := by
  refine ⟨strictMono_id, ?_, ?_, ?_, 1, one_pos, ?_⟩
  · intro h; simpa using congrArg Vec.x h
  · intro h; simpa using congrArg Vec.y h
  · rintro ⟨h, -⟩; norm_num [cross] at h
  · rw [one_smul]
    simp [map, rotate, cos_add, sin_add]

end Verif.C15
