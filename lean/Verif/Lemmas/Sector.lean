import Verif.Lemmas.Vector
import Mathlib.Analysis.SpecialFunctions.Complex.Arg

/-!
# Sectors and angles
-/

set_option linter.unusedSectionVars false

namespace Verif.Vec

open Real

theorem cross_rotate (v : Vec ℝ) (α β r s : ℝ) :
    cross (r • rotate α v) (s • rotate β v) = r * s * dot v v * sin (β - α) := by
  rw [sin_sub]
  simp only [cross, rotate, dot, smul_x, smul_y]
  ring

theorem dot_rotate (v : Vec ℝ) (α β r s : ℝ) :
    dot (r • rotate α v) (s • rotate β v) = r * s * dot v v * cos (β - α) := by
  rw [cos_sub]
  simp only [rotate, dot, smul_x, smul_y]
  ring

theorem rotate_zero (v : Vec ℝ) : rotate 0 v = v := by
  unfold rotate
  simp

/-- Vectors have polar coordinates. -/
theorem exists_turns {v w : Vec ℝ} (hv : v ≠ 0) (hw : w ≠ 0) : ∃ θ, 0 ≤ θ ∧ θ < 2 * π ∧ Turns v θ w := by
  set z : ℂ := ⟨dot v w, cross v w⟩ with hz
  have hvv := dot_self_pos hv
  have hww := dot_self_pos hw
  have hn : ‖z‖ * ‖z‖ = dot v v * dot w w := by
    rw [← lagrange, ← sq, ← Complex.normSq_eq_norm_sq]
    rfl
  have hz0 : 0 < ‖z‖ := by
    refine lt_of_le_of_ne (norm_nonneg z) fun h => ?_
    rw [← h, mul_zero] at hn
    exact absurd hn.symm (mul_pos hvv hww).ne'
  have hc : ‖z‖ * cos (Complex.arg z) = dot v w := Complex.norm_mul_cos_arg z
  have hs : ‖z‖ * sin (Complex.arg z) = cross v w := Complex.norm_mul_sin_arg z
  have key : ∀ θ, cos θ = cos (Complex.arg z) → sin θ = sin (Complex.arg z) → Turns v θ w := by
    intro θ h1 h2
    refine ⟨‖z‖ / dot v v, div_pos hz0 hvv, ?_⟩
    have hd := hvv.ne'
    have e1 : dot v w * v.x - cross v w * v.y = dot v v * w.x := by unfold dot cross; ring
    have e2 : cross v w * v.x + dot v w * v.y = dot v v * w.y := by unfold dot cross; ring
    ext
    · rw [smul_x]
      simp only [rotate]
      rw [h1, h2, div_mul_eq_mul_div, eq_div_iff hd, mul_sub, ← mul_assoc, ← mul_assoc, hc, hs, e1, mul_comm]
    · rw [smul_y]
      simp only [rotate]
      rw [h1, h2, div_mul_eq_mul_div, eq_div_iff hd, mul_add, ← mul_assoc, ← mul_assoc, hc, hs, e2, mul_comm]
  by_cases h : 0 ≤ Complex.arg z
  · exact ⟨_, h, by linarith [Complex.arg_le_pi z, pi_pos], key _ rfl rfl⟩
  · refine ⟨Complex.arg z + 2 * π, by linarith [Complex.neg_pi_lt_arg z], by linarith, key _ ?_ ?_⟩
    · exact cos_add_two_pi _
    · exact sin_add_two_pi _

theorem sin_pos_iff {t : ℝ} (h1 : 0 ≤ t) (h2 : t < 2 * π) : 0 < sin t ↔ 0 < t ∧ t < π := by
  constructor
  · intro h
    constructor
    · refine lt_of_le_of_ne h1 fun h' => ?_
      rw [← h', sin_zero] at h
      exact lt_irrefl _ h
    · by_contra h'
      have : sin (t - π) = - sin t := sin_sub_pi t
      have := sin_nonneg_of_nonneg_of_le_pi (x := t - π) (by linarith) (by linarith)
      linarith
  · rintro ⟨h, h'⟩
    exact sin_pos_of_pos_of_lt_pi h h'

theorem sin_neg_iff {t : ℝ} (h1 : 0 ≤ t) (h2 : t < 2 * π) : sin t < 0 ↔ π < t := by
  constructor
  · intro h
    by_contra h'
    linarith [sin_nonneg_of_nonneg_of_le_pi (x := t) h1 (not_lt.1 h')]
  · intro h
    have : sin (t - π) = - sin t := sin_sub_pi t
    have := sin_pos_of_pos_of_lt_pi (x := t - π) (by linarith) (by linarith)
    linarith

theorem sin_zero_iff {t : ℝ} (h1 : 0 ≤ t) (h2 : t < 2 * π) : sin t = 0 ↔ t = 0 ∨ t = π := by
  constructor
  · intro h
    have a := sin_pos_iff h1 h2
    have b := sin_neg_iff h1 h2
    rw [h] at a b
    by_cases h0 : t = 0
    · exact Or.inl h0
    · right
      have h0 := lt_of_le_of_ne h1 (Ne.symm h0)
      have b' : t ≤ π := not_lt.1 fun hh => lt_irrefl _ (b.2 hh)
      exact le_antisymm b' (not_lt.1 fun hh => lt_irrefl _ (a.2 ⟨h0, hh⟩))
  · rintro (rfl | rfl)
    · exact sin_zero
    · exact sin_pi

/-- The angle of a turn is unique. -/
theorem Turns.unique {v w : Vec ℝ} (hv : v ≠ 0) {α β : ℝ} (hα : 0 ≤ α ∧ α < 2 * π) (hβ : 0 ≤ β ∧ β < 2 * π)
    (h1 : Turns v α w) (h2 : Turns v β w) : α = β := by
  wlog hle : α ≤ β generalizing α β
  · exact (this hβ hα h2 h1 (le_of_not_ge hle)).symm
  obtain ⟨r, hr, e1⟩ := h1
  obtain ⟨s, hs, e2⟩ := h2
  have hvv := dot_self_pos hv
  have hp : 0 < r * s * dot v v := mul_pos (mul_pos hr hs) hvv
  have hc := cross_rotate v α β r s
  have hd := dot_rotate v α β r s
  rw [← e1, ← e2] at hc hd
  rw [cross_self] at hc
  have h0 : sin (β - α) = 0 := (mul_eq_zero.1 hc.symm).resolve_left hp.ne'
  rcases (sin_zero_iff (by linarith) (by linarith)).1 h0 with h | h
  · linarith
  · have hw : w ≠ 0 := by
      rintro rfl
      have := dot_rotate v α α r r
      rw [← e1, sub_self, cos_zero] at this
      have hp' : 0 < r * r * dot v v * 1 := by positivity
      rw [← this] at hp'
      simp [dot] at hp'
    rw [h, cos_pi] at hd
    have := dot_self_pos hw
    linarith

variable {T : Type*} [CommRing T] [LinearOrder T] [IsStrictOrderedRing T]
variable {K : Type*} [Field K] [LinearOrder K] [IsStrictOrderedRing K]

theorem cross_map (f : T →+* ℝ) (v w : Vec T) : cross (v.map f) (w.map f) = f (cross v w) := by
  simp [cross, map]

theorem dot_map (f : T →+* ℝ) (v w : Vec T) : dot (v.map f) (w.map f) = f (dot v w) := by
  simp [dot, map]

theorem map_ne_zero (f : T →+* ℝ) (hf : StrictMono f) {v : Vec T} (hv : v ≠ 0) : v.map f ≠ 0 := by
  intro h
  apply hv
  have h1 : f v.x = 0 := congrArg Vec.x h
  have h2 : f v.y = 0 := congrArg Vec.y h
  exact Vec.ext (hf.injective (h1.trans (map_zero f).symm)) (hf.injective (h2.trans (map_zero f).symm))

/-- What `inSector` computes, in terms of cross and inner products. -/
theorem inSector_eq (A : Option (Approx T K)) {v b e : Vec T} (hv : v ≠ 0) (hb : b ≠ 0) (he : e ≠ 0) :
    inSector A v b e = .ok (decide (
      (cross b e = 0 ∧ 0 < dot b e ∧ cross b v = 0 ∧ 0 < dot b v) ∨
      (cross b e = 0 ∧ dot b e < 0 ∧ (0 < cross b v ∨ cross b v = 0 ∧ 0 < dot b v)) ∨
      (0 < cross b e ∧ 0 ≤ cross b v ∧ 0 < cross v e) ∨
      (cross b e < 0 ∧ ¬ (0 ≤ cross e v ∧ 0 < cross v b)))) := by
  have nv := nonzero_iff.2 hv
  have nb := nonzero_iff.2 hb
  have ne := nonzero_iff.2 he
  have hor : ∀ {u w : Vec T}, u ≠ 0 → w ≠ 0 → ccw A u w = .collinear → orientation A u w = orientationExact u w := by
    intro u w hu hw h
    rw [ccw_eq, ccwExact_collinear] at h
    exact orientation_eq A (dot_ne_zero hu hw h)
  unfold inSector
  rw [inSectorAux]
  simp only [nv, nb, ne, Bool.not_true, Bool.false_eq_true, if_false]
  cases hbe : ccw A b e with
  | collinear =>
    simp only
    rw [hor hb he hbe]
    rw [ccw_eq, ccwExact_collinear] at hbe
    cases hbo : orientationExact b e with
    | same =>
      rw [orientationExact_same] at hbo
      simp only [hbe, hbo, true_and, lt_irrefl, false_and, or_false, hbo.not_gt]
      congr 1
      rw [← Bool.decide_and]
      congr 1
      rw [eq_iff_iff]
      constructor
      · rintro ⟨h1, h2⟩
        rw [hor hv hb h1] at h2
        rw [ccw_eq, ccwExact_collinear] at h1
        rw [orientationExact_same] at h2
        exact ⟨by rw [cross_comm, h1, neg_zero], by rwa [dot_comm]⟩
      · rintro ⟨h1, h2⟩
        have h1' : ccw A v b = .collinear := by
          rw [ccw_eq, ccwExact_collinear, cross_comm, h1, neg_zero]
        refine ⟨h1', ?_⟩
        rw [hor hv hb h1', orientationExact_same]
        rwa [dot_comm]
    | opposite =>
      rw [orientationExact_opposite] at hbo
      simp only [hbe, hbo, true_and, lt_irrefl, false_and, or_false, hbo.not_gt, false_or]
      cases hbv : ccw A b v with
      | counterclockwise =>
        rw [ccw_eq, ccwExact_ccw] at hbv
        simp [hbv]
      | clockwise =>
        rw [ccw_eq, ccwExact_clockwise] at hbv
        simp [hbv.not_gt, hbv.ne]
      | collinear =>
        simp only
        rw [hor hb hv hbv]
        rw [ccw_eq, ccwExact_collinear] at hbv
        simp [hbv, orientationExact_same]
    | orthogonal =>
      rw [orientationExact_orthogonal] at hbo
      exact absurd hbo (dot_ne_zero hb he hbe)
  | clockwise =>
    simp only
    rw [inSectorAux]
    simp only [nv, nb, ne, Bool.not_true, Bool.false_eq_true, if_false]
    rw [ccw_eq, ccwExact_clockwise] at hbe
    have heb : ccw A e b = .counterclockwise := by
      rw [ccw_eq, ccwExact_ccw, cross_comm]
      linarith
    simp only [heb, hbe, hbe.ne, hbe.not_gt, true_and, false_and, false_or, Except.map]
    congr 1
    rw [ccw_eq, ccw_eq, ← Bool.decide_and, ← decide_not]
    congr 1
    rw [eq_iff_iff, not_iff_not, ccwExact_ccw, ne_eq, ccwExact_clockwise, not_lt]
  | counterclockwise =>
    simp only
    rw [ccw_eq, ccwExact_ccw] at hbe
    simp only [hbe, hbe.ne', hbe.not_gt, true_and, false_and, false_or, or_false]
    congr 1
    rw [ccw_eq, ccw_eq, ← Bool.decide_and]
    congr 1
    rw [eq_iff_iff, ccwExact_ccw, ne_eq, ccwExact_clockwise, not_lt]

theorem cos_sign {t : ℝ} (h : t = 0 ∨ t = π) : (0 < cos t ↔ t = 0) ∧ (cos t < 0 ↔ t = π) := by
  rcases h with rfl | rfl
  · simp [pi_pos.ne]
  · simp [pi_pos.ne']

/-- `inSector` in terms of angles. -/
theorem inSector_angle (f : T →+* ℝ) (hf : StrictMono f) (A : Option (Approx T K)) {v b e : Vec T} (hv : v ≠ 0)
    (hb : b ≠ 0) (he : e ≠ 0) {θ Θ : ℝ} (hθ : 0 ≤ θ ∧ θ < 2 * π) (hΘ : 0 ≤ Θ ∧ Θ < 2 * π)
    (hbv : Turns (b.map f) θ (v.map f)) (hbe : Turns (b.map f) Θ (e.map f)) :
    inSector A v b e = .ok (decide (if Θ = 0 then θ = 0 else θ < Θ)) := by
  rw [inSector_eq A hv hb he]
  obtain ⟨r, hr, e1⟩ := hbv
  obtain ⟨s, hs, e2⟩ := hbe
  have hbb := dot_self_pos (map_ne_zero f hf hb)
  have e0 : b.map f = (1 : ℝ) • rotate 0 (b.map f) := by rw [rotate_zero, one_smul]
  have sgn : ∀ u : T, (0 < u ↔ 0 < f u) ∧ (u < 0 ↔ f u < 0) ∧ (u = 0 ↔ f u = 0) ∧ (0 ≤ u ↔ 0 ≤ f u) := by
    intro u
    refine ⟨?_, ?_, ?_, ?_⟩
    · rw [← hf.lt_iff_lt, map_zero]
    · rw [← hf.lt_iff_lt, map_zero]
    · rw [← hf.injective.eq_iff, map_zero]
    · rw [← hf.le_iff_le, map_zero]
  have c1 : f (cross b e) = s * dot (b.map f) (b.map f) * sin Θ := by
    rw [← cross_map]
    conv_lhs => rw [e2]; arg 1; rw [e0]
    rw [cross_rotate, one_mul, sub_zero]
  have c2 : f (cross b v) = r * dot (b.map f) (b.map f) * sin θ := by
    rw [← cross_map]
    conv_lhs => rw [e1]; arg 1; rw [e0]
    rw [cross_rotate, one_mul, sub_zero]
  have c3 : f (cross v e) = r * s * dot (b.map f) (b.map f) * sin (Θ - θ) := by
    rw [← cross_map]
    rw [e1, e2, cross_rotate]
  have d1 : f (dot b e) = s * dot (b.map f) (b.map f) * cos Θ := by
    rw [← dot_map]
    conv_lhs => rw [e2]; arg 1; rw [e0]
    rw [dot_rotate, one_mul, sub_zero]
  have d2 : f (dot b v) = r * dot (b.map f) (b.map f) * cos θ := by
    rw [← dot_map]
    conv_lhs => rw [e1]; arg 1; rw [e0]
    rw [dot_rotate, one_mul, sub_zero]
  have p1 : 0 < s * dot (b.map f) (b.map f) := mul_pos hs hbb
  have p2 : 0 < r * dot (b.map f) (b.map f) := mul_pos hr hbb
  have p3 : 0 < r * s * dot (b.map f) (b.map f) := mul_pos (mul_pos hr hs) hbb
  have mp : ∀ {p t : ℝ}, 0 < p → (0 < p * t ↔ 0 < t) := fun hp => mul_pos_iff_of_pos_left hp
  have mn : ∀ {p t : ℝ}, 0 < p → (p * t < 0 ↔ t < 0) := fun hp => by
    rw [← neg_pos, ← mul_neg, mp hp, neg_pos]
  have mz : ∀ {p t : ℝ}, 0 < p → (p * t = 0 ↔ t = 0) := fun hp => by simp [hp.ne']
  have hev : cross e v = - cross v e := cross_comm _ _
  have hvb : cross v b = - cross b v := cross_comm _ _
  have E0 : cross b e = 0 ↔ sin Θ = 0 := by rw [(sgn _).2.2.1, c1, mz p1]
  have EP : 0 < cross b e ↔ 0 < sin Θ := by rw [(sgn _).1, c1, mp p1]
  have EN : cross b e < 0 ↔ sin Θ < 0 := by rw [(sgn _).2.1, c1, mn p1]
  have V0 : cross b v = 0 ↔ sin θ = 0 := by rw [(sgn _).2.2.1, c2, mz p2]
  have VP : 0 < cross b v ↔ 0 < sin θ := by rw [(sgn _).1, c2, mp p2]
  have VN : cross b v < 0 ↔ sin θ < 0 := by rw [(sgn _).2.1, c2, mn p2]
  have WP : 0 < cross v e ↔ 0 < sin (Θ - θ) := by rw [(sgn _).1, c3, mp p3]
  have D1 : 0 < dot b e ↔ 0 < cos Θ := by rw [(sgn _).1, d1, mp p1]
  have D1' : dot b e < 0 ↔ cos Θ < 0 := by rw [(sgn _).2.1, d1, mn p1]
  have D2 : 0 < dot b v ↔ 0 < cos θ := by rw [(sgn _).1, d2, mp p2]
  have hev' : 0 ≤ cross e v ↔ ¬ 0 < sin (Θ - θ) := by rw [hev, neg_nonneg, ← not_lt, WP]
  have hvb' : 0 < cross v b ↔ sin θ < 0 := by rw [hvb, neg_pos, VN]
  have hge : 0 ≤ cross b v ↔ ¬ sin θ < 0 := by rw [← not_lt, VN]
  congr 1
  rw [decide_eq_decide, E0, EP, EN, V0, VP, D1, D1', D2, hge, WP, hev', hvb']
  have sθ0 := sin_zero_iff hθ.1 hθ.2
  have sθn := sin_neg_iff hθ.1 hθ.2
  have sθp := sin_pos_iff hθ.1 hθ.2
  have sΘ0 := sin_zero_iff hΘ.1 hΘ.2
  have sΘn := sin_neg_iff hΘ.1 hΘ.2
  have sΘp := sin_pos_iff hΘ.1 hΘ.2
  have hdiff : 0 < sin (Θ - θ) ↔ (θ < Θ ∧ Θ - θ < π) ∨ π < θ - Θ := by
    by_cases hle : θ ≤ Θ
    · rw [sin_pos_iff (by linarith) (by linarith [hθ.1, hΘ.2])]
      constructor
      · rintro ⟨h1, h2⟩
        exact Or.inl ⟨by linarith, h2⟩
      · rintro (⟨h1, h2⟩ | h1)
        · exact ⟨by linarith, h2⟩
        · linarith [pi_pos]
    · have : sin (Θ - θ) = - sin (θ - Θ) := by rw [← sin_neg, neg_sub]
      rw [this, neg_pos, sin_neg_iff (by linarith) (by linarith [hθ.2, hΘ.1])]
      constructor
      · exact Or.inr
      · rintro (⟨h1, h2⟩ | h1)
        · linarith
        · exact h1
  by_cases h0 : Θ = 0
  · rw [if_pos h0]
    have cΘ := cos_sign (Or.inl h0 : Θ = 0 ∨ Θ = π)
    have : sin Θ = 0 := sΘ0.2 (Or.inl h0)
    simp only [this, true_and, lt_irrefl, false_and, or_false, cΘ.1.2 h0, (cΘ.1.2 h0).not_gt]
    constructor
    · rintro ⟨h1, h2⟩
      exact (cos_sign (sθ0.1 h1)).1.1 h2
    · intro h
      exact ⟨sθ0.2 (Or.inl h), (cos_sign (Or.inl h)).1.2 h⟩
  · rw [if_neg h0]
    have hΘ0 := lt_of_le_of_ne hΘ.1 (Ne.symm h0)
    rcases lt_trichotomy Θ π with hlt | heq | hgt
    · have s1 : 0 < sin Θ := sΘp.2 ⟨hΘ0, hlt⟩
      simp only [s1, s1.ne', s1.not_gt, true_and, false_and, false_or, or_false]
      rw [sθn, hdiff]
      constructor
      · rintro ⟨h1, h2 | h2⟩
        · exact h2.1
        · linarith
      · intro h
        exact ⟨by linarith, Or.inl ⟨h, by linarith [hθ.1]⟩⟩
    · have s1 : sin Θ = 0 := sΘ0.2 (Or.inr heq)
      have cΘ := cos_sign (Or.inr heq : Θ = 0 ∨ Θ = π)
      simp only [s1, lt_irrefl, true_and, false_and, false_or, or_false, cΘ.2.2 heq, (cΘ.2.2 heq).not_gt]
      rw [sθp]
      constructor
      · rintro (h | ⟨h, h'⟩)
        · linarith [h.2]
        · rw [(cos_sign (sθ0.1 h)).1.1 h']
          exact hΘ0
      · intro h
        by_cases h' : θ = 0
        · exact Or.inr ⟨sθ0.2 (Or.inl h'), (cos_sign (Or.inl h')).1.2 h'⟩
        · exact Or.inl ⟨lt_of_le_of_ne hθ.1 (Ne.symm h'), by linarith⟩
    · have s1 : sin Θ < 0 := sΘn.2 hgt
      simp only [s1, s1.ne, s1.not_gt, true_and, false_and, false_or]
      rw [sθn, hdiff]
      constructor
      · intro h
        by_contra h'
        apply h
        refine ⟨?_, by linarith⟩
        rintro (⟨h1, h2⟩ | h1)
        · exact h' h1
        · linarith [hθ.2]
      · rintro h ⟨h1, h2⟩
        exact h1 (Or.inl ⟨h, by linarith [hΘ.2]⟩)

end Verif.Vec
