import Verif.Lemmas.Vector
import Mathlib.Tactic.NormNum
import Mathlib.Algebra.Order.Ring.Rat

/-!
# C14: ccw and orientation behave like geometry

# C60: the shortcut in orientation never changes the answer
-/

namespace Verif.C14

open Vec

variable {T : Type*} [CommRing T] [LinearOrder T] [IsStrictOrderedRing T]
variable {K : Type*} [Field K] [LinearOrder K] [IsStrictOrderedRing K]

/-- `v.ccw(w)` is the sign of the cross product, with and without interval arithmetic, whatever the enclosures are. -/
theorem ccw_correct (A : Option (Approx T K)) (v w : Vec T) :
    (ccw A v w = .counterclockwise ↔ 0 < cross v w) ∧
    (ccw A v w = .collinear ↔ cross v w = 0) ∧
    (ccw A v w = .clockwise ↔ cross v w < 0) := by
  rw [ccw_eq]
  exact ⟨ccwExact_ccw, ccwExact_collinear, ccwExact_clockwise⟩

/-- Two turns which compare the same way have the same name. -/
theorem ccw_ext (A B : Option (Approx T K)) {v w v' w' : Vec T}
    (h : (0 < cross v w ↔ 0 < cross v' w') ∧ (cross v w < 0 ↔ cross v' w' < 0)) : ccw A v w = ccw B v' w' := by
  obtain ⟨h1, h2, h3⟩ := ccw_correct A v w
  obtain ⟨h1', h2', h3'⟩ := ccw_correct B v' w'
  rcases lt_trichotomy (cross v w) 0 with h0 | h0 | h0
  · rw [h3.2 h0, h3'.2 (h.2.1 h0)]
  · have : cross v' w' = 0 := by
      apply le_antisymm
      · exact not_lt.1 fun hh => absurd (h.1.2 hh) (by rw [h0]; exact lt_irrefl _)
      · exact not_lt.1 fun hh => absurd (h.2.2 hh) (by rw [h0]; exact lt_irrefl _)
    rw [h2.2 h0, h2'.2 this]
  · rw [h1.2 h0, h1'.2 (h.1.1 h0)]

/-- Reversing the roles reverses the turn. -/
theorem ccw_antisymm (A : Option (Approx T K)) (v w : Vec T) : ccw A w v = (ccw A v w).reverse := by
  obtain ⟨h1, h2, h3⟩ := ccw_correct A v w
  obtain ⟨h1', h2', h3'⟩ := ccw_correct A w v
  rw [cross_comm] at h1' h2' h3'
  rcases lt_trichotomy (cross v w) 0 with h0 | h0 | h0
  · rw [h3.2 h0, h1'.2 (neg_pos.2 h0)]; rfl
  · rw [h2.2 h0, h2'.2 (neg_eq_zero.2 h0)]; rfl
  · rw [h1.2 h0, h3'.2 (neg_lt_zero.2 h0)]; rfl

/-- Positive factors do not change the turn. -/
theorem ccw_scale (A : Option (Approx T K)) (v w : Vec T) {c d : T} (hc : 0 < c) (hd : 0 < d) :
    ccw A (c • v) (d • w) = ccw A v w := by
  apply ccw_ext
  rw [cross_smul_left, cross_smul_right, ← mul_assoc]
  have := mul_pos hc hd
  exact ⟨mul_pos_iff_of_pos_left this, by rw [← neg_pos, ← mul_neg, mul_pos_iff_of_pos_left this, neg_pos]⟩

/-- Linear maps preserve the turn if they preserve the orientation, and reverse it if they reverse the orientation. -/
theorem ccw_applyMatrix (A : Option (Approx T K)) (a b c d : T) (v w : Vec T) :
    (0 < a * d - b * c → ccw A (v.applyMatrix a b c d) (w.applyMatrix a b c d) = ccw A v w) ∧
    (a * d - b * c < 0 → ccw A (v.applyMatrix a b c d) (w.applyMatrix a b c d) = (ccw A v w).reverse) ∧
    (a * d - b * c = 0 → ccw A (v.applyMatrix a b c d) (w.applyMatrix a b c d) = .collinear) := by
  refine ⟨fun h => ?_, fun h => ?_, fun h => ?_⟩
  · apply ccw_ext
    rw [cross_applyMatrix]
    exact ⟨mul_pos_iff_of_pos_left h, by rw [← neg_pos, ← mul_neg, mul_pos_iff_of_pos_left h, neg_pos]⟩
  · rw [← ccw_antisymm]
    apply ccw_ext
    have h := neg_pos.2 h
    rw [cross_applyMatrix, cross_comm v w, ← neg_mul_neg]
    exact ⟨mul_pos_iff_of_pos_left h, by rw [← neg_pos, ← mul_neg, mul_pos_iff_of_pos_left h, neg_pos]⟩
  · rw [(ccw_correct A _ _).2.1, cross_applyMatrix, h, zero_mul]

omit [IsStrictOrderedRing K] in
/-- `v.orientation(w)` is the sign of the inner product when it is computed exactly. -/
theorem orientation_correct (v w : Vec T) :
    (orientation (K := K) none v w = .same ↔ 0 < dot v w) ∧
    (orientation (K := K) none v w = .orthogonal ↔ dot v w = 0) ∧
    (orientation (K := K) none v w = .opposite ↔ dot v w < 0) :=
  ⟨orientationExact_same, orientationExact_orthogonal, orientationExact_opposite⟩

/-- `perpendicular()` is a counterclockwise quarter turn. -/
theorem perpendicular_correct (A : Option (Approx T K)) {v : Vec T} (hv : v ≠ 0) :
    ccw A v v.perpendicular = .counterclockwise ∧ orientation (K := K) none v v.perpendicular = .orthogonal ∧
    dot v.perpendicular v.perpendicular = dot v v := by
  refine ⟨(ccw_correct A _ _).1.2 ?_, (orientation_correct v _).2.1.2 ?_, ?_⟩
  · have := dot_self_pos hv
    have e : cross v v.perpendicular = dot v v := by unfold cross perpendicular dot; ring
    rwa [e]
  · unfold perpendicular dot; ring
  · unfold perpendicular dot; ring

/-! ### C60 -/

/-- C60 for vectors which are not orthogonal; or if the enclosure of their inner product does not have zero as its
upper end, unless it is exact. Missing: the remaining case, see `shortcut_changes_answer`. -/
theorem orientation_shortcut_partial (A : Approx T K) (v w : Vec T)
    (h : dot v w = 0 → (dotArb A v w).mid + (dotArb A v w).rad = 0 → (dotArb A v w).rad = 0) :
    (orientation (some A) v w = .same ↔ 0 < dot v w) ∧
    (orientation (some A) v w = .orthogonal ↔ dot v w = 0) ∧
    (orientation (some A) v w = .opposite ↔ dot v w < 0) := by
  have : orientation (some A) v w = orientationExact v w := by
    unfold orientation
    simp only
    cases h' : orientationArb A v w with
    | none => rfl
    | some c => exact orientationArb_sound A h' h
  rw [this]
  exact ⟨orientationExact_same, orientationExact_orthogonal, orientationExact_opposite⟩

/-- An interval arithmetic which encloses all results. The sum of two exact numbers is rounded to a ball whose upper end
is the exact result. -/
def roundedDown : Approx ℚ ℚ where
  value := RingHom.id ℚ
  strictMono := strictMono_id
  arb := Ball.exact
  arb_mem t := Ball.mem_exact.2 rfl
  add a b := ⟨a.mid + b.mid - 1, a.rad + b.rad + 1, by linarith [a.rad_nonneg, b.rad_nonneg]⟩
  add_mem {x y a b} hx hy := by
    unfold Ball.Mem at *
    rw [abs_le] at *
    constructor <;> simp only <;> linarith [hx.1, hx.2, hy.1, hy.2]
  mul a b := ⟨a.mid * b.mid, |a.mid| * b.rad + a.rad * |b.mid| + a.rad * b.rad, by
    have := a.rad_nonneg; have := b.rad_nonneg; positivity⟩
  mul_mem {x y a b} hx hy := by
    unfold Ball.Mem at *
    have e : x * y - a.mid * b.mid = a.mid * (y - b.mid) + (x - a.mid) * b.mid + (x - a.mid) * (y - b.mid) := by ring
    simp only
    rw [e]
    refine (abs_add_le _ _).trans (add_le_add ((abs_add_le _ _).trans (add_le_add ?_ ?_)) ?_)
    · rw [abs_mul]; exact mul_le_mul_of_nonneg_left hy (abs_nonneg _)
    · rw [abs_mul]; exact mul_le_mul_of_nonneg_right hx (abs_nonneg _)
    · rw [abs_mul]; exact mul_le_mul hx hy (abs_nonneg _) a.rad_nonneg

/-- C60 fails: if zero happens to be the upper end of the enclosure, orthogonal vectors are reported as having opposite
orientation, although the enclosure is correct. -/
theorem shortcut_changes_answer :
    ∃ (A : Approx ℚ ℚ) (v w : Vec ℚ), orientation (some A) v w = .opposite ∧ dot v w = 0 :=
  ⟨roundedDown, ⟨1, 0⟩, ⟨0, 1⟩, by
    norm_num [orientation, orientationArb, dotArb, roundedDown, Ball.gt, Ball.eq, Ball.exact, Ball.overlaps]
    rfl, by
    norm_num [dot]⟩

/-- The hypotheses are met: an enclosure which is not exact, of an inner product which is not zero. -/
example : ∃ v w : Vec ℚ, dot v w ≠ 0 ∧ (dotArb roundedDown v w).rad ≠ 0 ∧
    orientation (some roundedDown) v w = .same :=
  ⟨⟨1, 2⟩, ⟨3, 4⟩, by norm_num [dot], by norm_num [dotArb, roundedDown, Ball.exact], by
    norm_num [orientation, orientationArb, dotArb, roundedDown, Ball.gt, Ball.eq, Ball.exact, Ball.overlaps]⟩

/-- The shortcut does decide turns. -/
example : ccwArb roundedDown ⟨1, 2⟩ ⟨3, 4⟩ = some .clockwise := by
  norm_num [ccwArb, roundedDown, Ball.exact, Ball.overlaps, Ball.isExact]

/-- Positive factors and a matrix of positive determinant. -/
example : (0 : ℤ) < 2 ∧ (0 : ℤ) < 1 * 1 - (-3) * 2 := by norm_num

end Verif.C14
