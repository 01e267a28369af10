import Verif.Model.LinearEquivalence
import Verif.Lemmas.Vector
import Mathlib.Tactic.LinearCombination
import Mathlib.Algebra.Order.Ring.Abs

/-!
Normalizing matrices.
-/

set_option linter.unusedSectionVars false

namespace Verif

variable {T : Type} [CommRing T] [LinearOrder T] [IsStrictOrderedRing T]

namespace Mat

theorem apply_x (M : Mat T) (v : Vec T) : (M.apply v).x = M.a * v.x + M.b * v.y := rfl
theorem apply_y (M : Mat T) (v : Vec T) : (M.apply v).y = M.c * v.x + M.d * v.y := rfl

/-- The product of matrices. -/
def mul (M N : Mat T) : Mat T :=
  ⟨M.a * N.a + M.b * N.c, M.a * N.b + M.b * N.d, M.c * N.a + M.d * N.c, M.c * N.b + M.d * N.d⟩

theorem mul_apply (M N : Mat T) (v : Vec T) : (M.mul N).apply v = M.apply (N.apply v) := by
  ext <;> simp only [apply_x, apply_y, mul] <;> ring

theorem det_mul (M N : Mat T) : (M.mul N).det = M.det * N.det := by
  simp only [det, mul]; ring

theorem cross_apply (M : Mat T) (v w : Vec T) : Vec.cross (M.apply v) (M.apply w) = M.det * Vec.cross v w := by
  simp only [Vec.cross, apply_x, apply_y, det]; ring

/-- A matrix is determined by its values at two vectors that are not collinear. -/
theorem ext_of_apply {M N : Mat T} {v w : Vec T} (h : Vec.cross v w ≠ 0) (hv : M.apply v = N.apply v) (hw : M.apply w = N.apply w) :
    M = N := by
  have h1 := congrArg Vec.x hv
  have h2 := congrArg Vec.y hv
  have h3 := congrArg Vec.x hw
  have h4 := congrArg Vec.y hw
  simp only [apply_x, apply_y] at h1 h2 h3 h4
  unfold Vec.cross at h
  ext
  · exact mul_right_cancel₀ h (by linear_combination w.y * h1 - v.y * h3)
  · exact mul_right_cancel₀ h (by linear_combination v.x * h3 - w.x * h1)
  · exact mul_right_cancel₀ h (by linear_combination w.y * h2 - v.y * h4)
  · exact mul_right_cancel₀ h (by linear_combination v.x * h4 - w.x * h2)

end Mat

/-- The division of the ring finds the quotient if there is one. -/
def ExactQuot (quot : T → T → T) : Prop := ∀ n d q : T, d ≠ 0 → q * d = n → quot n d = q

namespace LinearEquivalence

theorem div_ok {quot : T → T → T} {n d q : T} (h : div quot n d = .ok q) : q * d = n := by
  unfold div at h
  split_ifs at h with h1
  cases h
  exact h1

theorem div_of {quot : T → T → T} (hq : ExactQuot quot) {n d q : T} (hd : d ≠ 0) (h : q * d = n) : div quot n d = .ok q := by
  have := hq n d q hd h
  unfold div
  rw [this, if_pos h]

theorem div_error {quot : T → T → T} {n d : T} {e : Err} (h : div quot n d = .error e) : e = .logicError := by
  unfold div at h
  split_ifs at h
  cases h
  rfl

theorem bind_ok {A B : Type} {x : Except Err A} {f : A → Except Err B} {b : B} (h : (x >>= f) = .ok b) :
    ∃ a, x = .ok a ∧ f a = .ok b := by
  cases x with
  | error e => cases h
  | ok a => exact ⟨a, rfl, h⟩

theorem bind_err {A B : Type} {x : Except Err A} {f : A → Except Err B} {e : Err} (h : (x >>= f) = .error e) :
    x = .error e ∨ ∃ a, x = .ok a ∧ f a = .error e := by
  cases x with
  | error e' => left; cases h; rfl
  | ok a => exact .inr ⟨a, rfl, h⟩

theorem orthonormalize_ok {dbg : Bool} {quot : T → T → T} {v w : Vec T} {M : Mat T}
    (h : orthonormalize dbg quot v w = .ok M) :
    Vec.cross v w ≠ 0 ∧ M.apply v = ⟨1, 0⟩ ∧ M.apply w = ⟨0, 1⟩ := by
  simp only [orthonormalize] at h
  have hdet : v.x * w.y - v.y * w.x ≠ 0 := by
    intro hc
    rw [if_pos hc] at h
    cases h
  rw [if_neg hdet] at h
  obtain ⟨a, ha, h⟩ := bind_ok h
  obtain ⟨b, hb, h⟩ := bind_ok h
  obtain ⟨c, hc, h⟩ := bind_ok h
  obtain ⟨d, hd, h⟩ := bind_ok h
  have hM : (⟨a, -b, -c, d⟩ : Mat T) = M := Except.ok.inj h
  subst hM
  replace ha := div_ok ha
  replace hb := div_ok hb
  replace hc := div_ok hc
  replace hd := div_ok hd
  refine ⟨hdet, ?_, ?_⟩
  · ext
    · apply mul_right_cancel₀ hdet
      simp only [Mat.apply_x]
      linear_combination v.x * ha - v.y * hb
    · apply mul_right_cancel₀ hdet
      simp only [Mat.apply_y]
      linear_combination v.y * hd - v.x * hc
  · ext
    · apply mul_right_cancel₀ hdet
      simp only [Mat.apply_x]
      linear_combination w.x * ha - w.y * hb
    · apply mul_right_cancel₀ hdet
      simp only [Mat.apply_y]
      linear_combination w.y * hd - w.x * hc

theorem orthonormalize_of (dbg : Bool) {quot : T → T → T} (hq : ExactQuot quot) {v w : Vec T} (hdet : Vec.cross v w ≠ 0) {M : Mat T}
    (hv : M.apply v = ⟨1, 0⟩) (hw : M.apply w = ⟨0, 1⟩) : orthonormalize dbg quot v w = .ok M := by
  have hdet' : v.x * w.y - v.y * w.x ≠ 0 := hdet
  have h1 := congrArg Vec.x hv
  have h2 := congrArg Vec.y hv
  have h3 := congrArg Vec.x hw
  have h4 := congrArg Vec.y hw
  simp only [Mat.apply_x, Mat.apply_y] at h1 h2 h3 h4
  simp only [orthonormalize]
  rw [if_neg hdet', div_of hq hdet' (q := M.a) (by linear_combination w.y * h1 - v.y * h3),
    div_of hq hdet' (q := -M.b) (by linear_combination w.x * h1 - v.x * h3),
    div_of hq hdet' (q := -M.c) (by linear_combination v.y * h4 - w.y * h2),
    div_of hq hdet' (q := M.d) (by linear_combination v.x * h4 - w.x * h2)]
  simp only [bind, Except.bind, pure, Except.pure, _root_.neg_neg]

theorem orthonormalize_det {M : Mat T} {v w : Vec T} (hv : M.apply v = ⟨1, 0⟩) (hw : M.apply w = ⟨0, 1⟩) :
    M.det * Vec.cross v w = 1 := by
  rw [← Mat.cross_apply, hv, hw]
  simp [Vec.cross]

theorem orthonormalize_error {dbg : Bool} {quot : T → T → T} {v w : Vec T} (hdet : Vec.cross v w ≠ 0) {e : Err}
    (h : orthonormalize dbg quot v w = .error e) : e = .logicError := by
  have hdet' : v.x * w.y - v.y * w.x ≠ 0 := hdet
  simp only [orthonormalize] at h
  rw [if_neg hdet'] at h
  rcases bind_err h with h | ⟨_, _, h⟩
  · exact div_error h
  rcases bind_err h with h | ⟨_, _, h⟩
  · exact div_error h
  rcases bind_err h with h | ⟨_, _, h⟩
  · exact div_error h
  rcases bind_err h with h | ⟨_, _, h⟩
  · exact div_error h
  · cases h

/-- The absolute value of the determinant. -/
theorem abs_ite (x : T) : (if x < 0 then -x else x) = |x| := by
  split_ifs with h
  · rw [abs_of_neg h]
  · rw [abs_of_nonneg (not_lt.1 h)]

theorem orthogonalize_eq {dbg : Bool} {quot : T → T → T} (hq : ExactQuot quot) {v w : Vec T} {M : Mat T}
    (h : orthonormalize dbg quot v w = .ok M) :
    orthogonalize dbg quot v w = .ok ⟨M.a, M.b, M.c * |Vec.cross v w|, M.d * |Vec.cross v w|⟩ := by
  obtain ⟨hdet, hv, hw⟩ := orthonormalize_ok h
  have h1 := orthonormalize_det hv hw
  have h2 : |M.det| * |Vec.cross v w| = 1 := by rw [← abs_mul, h1, abs_one]
  have h3 : |M.det| ≠ 0 := by
    intro hc
    rw [hc, zero_mul] at h2
    exact zero_ne_one h2
  simp only [orthogonalize]
  rw [h]
  simp only [bind, Except.bind, abs_ite]
  have e : |M.a * M.d - M.b * M.c| = |M.det| := rfl
  rw [e, div_of hq h3 (q := M.c * |Vec.cross v w|) (by linear_combination M.c * h2),
    div_of hq h3 (q := M.d * |Vec.cross v w|) (by linear_combination M.d * h2)]
  rfl

theorem orthogonalize_ok {dbg : Bool} {quot : T → T → T} (hq : ExactQuot quot) {v w : Vec T} {M : Mat T}
    (h : orthogonalize dbg quot v w = .ok M) :
    Vec.cross v w ≠ 0 ∧ M.apply v = ⟨1, 0⟩ ∧ M.apply w = ⟨0, |Vec.cross v w|⟩ := by
  obtain ⟨N, hN, -⟩ := bind_ok h
  have h1 := orthogonalize_eq hq hN
  rw [h] at h1
  cases h1
  obtain ⟨hdet, hv, hw⟩ := orthonormalize_ok hN
  refine ⟨hdet, ?_, ?_⟩
  · have h2 := congrArg Vec.x hv
    have h3 := congrArg Vec.y hv
    simp only [Mat.apply_x, Mat.apply_y] at h2 h3
    ext
    · exact h2
    · simp only [Mat.apply_y]
      linear_combination |Vec.cross v w| * h3
  · have h2 := congrArg Vec.x hw
    have h3 := congrArg Vec.y hw
    simp only [Mat.apply_x, Mat.apply_y] at h2 h3
    ext
    · exact h2
    · simp only [Mat.apply_y]
      linear_combination |Vec.cross v w| * h3

theorem orthogonalize_det {M : Mat T} {v w : Vec T} (hdet : Vec.cross v w ≠ 0) (hv : M.apply v = ⟨1, 0⟩)
    (hw : M.apply w = ⟨0, |Vec.cross v w|⟩) : M.det * Vec.cross v w = |Vec.cross v w| ∧ (M.det = 1 ∨ M.det = -1) := by
  have h1 : M.det * Vec.cross v w = |Vec.cross v w| := by
    rw [← Mat.cross_apply, hv, hw]
    simp [Vec.cross]
  refine ⟨h1, ?_⟩
  rcases lt_or_gt_of_ne hdet with h | h
  · right
    rw [abs_of_neg h] at h1
    exact mul_right_cancel₀ hdet (by linear_combination h1)
  · left
    rw [abs_of_pos h] at h1
    exact mul_right_cancel₀ hdet (by linear_combination h1)

theorem orthogonalize_of_orthonormalize (dbg : Bool) {quot : T → T → T} (hq : ExactQuot quot) {v w : Vec T} :
    (∃ M, orthogonalize dbg quot v w = .ok M) ↔ ∃ M, orthonormalize dbg quot v w = .ok M := by
  constructor
  · rintro ⟨M, h⟩
    obtain ⟨N, hN, -⟩ := bind_ok h
    exact ⟨N, hN⟩
  · rintro ⟨M, h⟩
    exact ⟨_, orthogonalize_eq hq h⟩

theorem orthogonalize_error {dbg : Bool} {quot : T → T → T} {v w : Vec T} (hdet : Vec.cross v w ≠ 0) {e : Err}
    (h : orthogonalize dbg quot v w = .error e) : e = .logicError := by
  simp only [orthogonalize] at h
  rcases bind_err h with h | ⟨_, _, h⟩
  · exact orthonormalize_error hdet h
  rcases bind_err h with h | ⟨_, _, h⟩
  · exact div_error h
  rcases bind_err h with h | ⟨_, _, h⟩
  · exact div_error h
  · cases h

end LinearEquivalence

end Verif
