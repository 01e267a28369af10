import Verif.Lemmas.Bound
import Mathlib.Analysis.SpecialFunctions.Sqrt

/-!
# C25: comparing vectors with a Bound is comparing lengths
-/

set_option linter.unusedSectionVars false

namespace Verif.C25

open Vec _root_.Verif.Bound

/-- The number a bound stands for. -/
noncomputable def radius (b : Bound) : ℝ := Real.sqrt b.square

/-- The length of a vector. -/
noncomputable def length (v : Vec ℝ) : ℝ := Real.sqrt (v.x ^ 2 + v.y ^ 2)

/-- The bounds which can be built with the interface. -/
inductive Reachable : Bound → Prop
  | zero : Reachable Bound.zero
  | ofInt (x) : Reachable (ofInt x)
  | ofInts (x y) : Reachable (ofInts x y)
  | scale {b} (h : Reachable b) (c) : Reachable (b.scale c)
  | lowerInt (v) : Reachable (lowerInt v)
  | upperInt (v) : Reachable (upperInt v)
  | lowerRat (v) : Reachable (lowerRat v)
  | upperRat (v) : Reachable (upperRat v)
  | lowerFloor {T : Type} [CommRing T] [LinearOrder T] [IsStrictOrderedRing T] [FloorRing T] (v : Vec T) :
    Reachable (lowerFloor v)
  | upperCeil {T : Type} [CommRing T] [LinearOrder T] [IsStrictOrderedRing T] [FloorRing T] (v : Vec T) :
    Reachable (upperCeil v)

theorem Reachable.nonneg {b : Bound} (h : Reachable b) : 0 ≤ b.square := by
  induction h with
  | zero => exact le_rfl
  | ofInt x => exact mul_self_nonneg x
  | ofInts x y => exact add_nonneg (mul_self_nonneg x) (mul_self_nonneg y)
  | scale h c ih => exact mul_nonneg ih (mul_self_nonneg c)
  | lowerInt v => exact dot_self_nonneg v
  | upperInt v => exact dot_self_nonneg v
  | lowerRat v =>
    unfold Bound.lowerRat
    simp only
    rw [rat_tdiv _ (dot_self_nonneg v)]
    exact Int.floor_nonneg.2 (dot_self_nonneg v)
  | upperRat v =>
    unfold Bound.upperRat
    simp only
    rw [rat_ceil _ (dot_self_nonneg v)]
    exact Int.ceil_nonneg (dot_self_nonneg v)
  | lowerFloor v => exact Int.floor_nonneg.2 (dot_self_nonneg v)
  | upperCeil v => exact Int.ceil_nonneg (dot_self_nonneg v)

/-- `Bound(x)` is the absolute value of `x`, `Bound(x, y)` is the length of the vector `(x, y)`. -/
theorem radius_correct (x y : ℤ) : radius (ofInt x) = |(x : ℝ)| ∧ radius (ofInts x y) = length ⟨x, y⟩ := by
  unfold radius length ofInt ofInts
  constructor
  · push_cast
    exact Real.sqrt_mul_self_eq_abs _
  · push_cast
    rw [sq, sq]

/-- Bounds are ordered by the numbers they stand for. A bound is false if it is zero. -/
theorem order_correct {b c : Bound} (hb : Reachable b) (hc : Reachable c) :
    (b.lt c = true ↔ radius b < radius c) ∧ (b.beq c = true ↔ radius b = radius c) ∧
    (b.nonzero = true ↔ radius b ≠ 0) := by
  have h1 : (0 : ℝ) ≤ b.square := by exact_mod_cast hb.nonneg
  have h2 : (0 : ℝ) ≤ c.square := by exact_mod_cast hc.nonneg
  unfold radius Bound.lt Bound.beq Bound.nonzero
  rw [decide_eq_true_eq, decide_eq_true_eq, decide_eq_true_eq, Real.sqrt_lt_sqrt_iff h1, Real.sqrt_inj h1 h2, ne_eq, ne_eq,
    Real.sqrt_eq_zero h1]
  norm_cast

/-- Multiplication scales the number. -/
theorem scale_correct {b : Bound} (c : ℤ) : radius (b.scale c) = radius b * |(c : ℝ)| := by
  unfold radius Bound.scale
  push_cast
  rw [Real.sqrt_mul' _ (mul_self_nonneg _), Real.sqrt_mul_self_eq_abs]

section compare

variable {T : Type*} [CommRing T] [LinearOrder T] [IsStrictOrderedRing T]
variable {K : Type*} [Field K] [LinearOrder K] [IsStrictOrderedRing K]

omit [IsStrictOrderedRing T] in
theorem length_sq (f : T →+* ℝ) (v : Vec T) : length (v.map f) = Real.sqrt (f (dot v v)) := by
  unfold length map dot
  rw [map_add, map_mul, map_mul, sq, sq]

/-- `v < bound` and `v > bound` compare the length of `v` to the bound, whatever the enclosures used to approximate are.
(Here `f` says which real numbers the coordinates are.) -/
theorem compare_correct (f : T →+* ℝ) (hf : StrictMono f) (A : Option (Approx T K)) (v : Vec T) {b : Bound}
    (hb : Reachable b) :
    (ltBound A v b = true ↔ length (v.map f) < radius b) ∧ (gtBound A v b = true ↔ length (v.map f) > radius b) := by
  rw [ltBound_eq, gtBound_eq, decide_eq_true_eq, decide_eq_true_eq, length_sq]
  unfold radius
  have h1 : 0 ≤ f (dot v v) := by
    rw [← map_zero f, hf.le_iff_le]
    exact dot_self_nonneg v
  have h2 : (0 : ℝ) ≤ b.square := by exact_mod_cast hb.nonneg
  rw [Real.sqrt_lt_sqrt_iff h1, gt_iff_lt, Real.sqrt_lt_sqrt_iff h2, ← map_intCast f, hf.lt_iff_lt, hf.lt_iff_lt]
  exact ⟨Iff.rfl, Iff.rfl⟩

/-- `Bound::lower(v)` and `Bound::upper(v)` enclose the length of a vector with coordinates which can be rounded. -/
theorem lower_upper_correct [FloorRing T] (f : T →+* ℝ) (hf : StrictMono f) (v : Vec T) :
    radius (lowerFloor v) ≤ length (v.map f) ∧ length (v.map f) ≤ radius (upperCeil v) := by
  rw [length_sq]
  unfold radius lowerFloor upperCeil
  constructor
  · apply Real.sqrt_le_sqrt
    rw [← map_intCast f]
    exact hf.monotone (Int.floor_le _)
  · apply Real.sqrt_le_sqrt
    rw [← map_intCast f]
    exact hf.monotone (Int.le_ceil _)

/-- `Bound::lower(v)` and `Bound::upper(v)` for integers are exact. -/
theorem lower_upper_int (v : Vec ℤ) :
    radius (lowerInt v) = length (v.map (↑)) ∧ length (v.map (↑)) = radius (upperInt v) := by
  have := length_sq (Int.castRingHom ℝ) v
  unfold radius lowerInt upperInt
  exact ⟨this.symm, this⟩

/-- `Bound::lower(v)` and `Bound::upper(v)` for rationals: the integers closest to the square of the length. -/
theorem lower_upper_rat (v : Vec ℚ) :
    radius (lowerRat v) ≤ length (v.map (↑)) ∧ length (v.map (↑)) ≤ radius (upperRat v) ∧
    lowerRat v = lowerFloor v ∧ upperRat v = upperCeil v := by
  have h1 : lowerRat v = lowerFloor v := by
    unfold lowerRat lowerFloor
    rw [rat_tdiv _ (dot_self_nonneg v)]
  have h2 : upperRat v = upperCeil v := by
    unfold upperRat upperCeil
    rw [rat_ceil _ (dot_self_nonneg v)]
  have hf : StrictMono (Rat.castHom ℝ) := fun a b h => by simpa using h
  have := lower_upper_correct (Rat.castHom ℝ) hf v
  rw [h1, h2]
  exact ⟨this.1, this.2, rfl, rfl⟩

end compare

/-- The hypotheses are met: a bound which is not an integer. -/
example : Reachable (ofInts 1 1) ∧ radius (ofInts 1 1) = Real.sqrt 2 ∧ StrictMono (Rat.castHom ℝ) :=
  ⟨.ofInts 1 1, by norm_num [radius, ofInts], fun a b h => by simpa using h⟩

/-- A vector whose length is between two bounds. -/
example : lowerRat ⟨1 / 2, 3 / 2⟩ = ⟨2⟩ ∧ upperRat ⟨1 / 2, 3 / 2⟩ = ⟨3⟩ := by decide +kernel

end Verif.C25
