import Verif.Model.LongLong
import Mathlib.Tactic.NormNum

/-!
# C154: multiplication of vectors of machine integers is exact, or the overflow is reported
-/

namespace Verif.C154

open Verif Vec

/-- `x` is a `long long`. -/
def Fits (x : ℤ) : Prop := -2 ^ 63 ≤ x ∧ x ≤ 2 ^ 63 - 1

/-- The conversion to `long long` is only known for numbers that fit. -/
def Converts (sll : ℤ → ℤ) : Prop := ∀ n, Fits n → sll n = n

theorem product_ok {x y : ℤ} (h : Fits (x * y)) : llongProduct x y = .ok (x * y) := if_pos h

theorem product_error {x y : ℤ} (h : ¬Fits (x * y)) : llongProduct x y = .error .undefined := if_neg h

/-- For factors that fit, the product is exact unless one of the coordinates overflows. -/
theorem mul_correct {dbg : Bool} {sll : ℤ → ℤ} (hs : Converts sll) {rhs : ℤ} (hr : Fits rhs) {v : Vec ℤ} (hx : Fits (rhs * v.x))
    (hy : Fits (rhs * v.y)) : llongMul dbg sll rhs v = .ok ⟨rhs * v.x, rhs * v.y⟩ := by
  unfold llongMul
  rw [hs _ hr, product_ok (by rwa [mul_comm]), product_ok (by rwa [mul_comm]), if_neg, if_neg, mul_comm v.x, mul_comm v.y]
  · have := hy.2
    simp only [Bool.and_eq_true, decide_eq_true_eq, not_and]
    omega
  · have := hx.2
    simp only [Bool.and_eq_true, decide_eq_true_eq, not_and]
    omega

/-- With assertions, products that are too large are reported, for all factors. Missing: products that are too small, see
`overflow_missed`, and factors that do not fit, see `truncated`. -/
theorem overflow_reported_partial (sll : ℤ → ℤ) {rhs : ℤ} {v : Vec ℤ} (h : 2 ^ 63 - 1 < rhs * v.x ∨ 2 ^ 63 - 1 < rhs * v.y) :
    llongMul true sll rhs v = .error .logicError := by
  unfold llongMul
  simp only [Bool.true_and, decide_eq_true_eq]
  split
  · rfl
  · rw [if_pos (by omega)]

/-- The property fails: with assertions, products that are too small lead to undefined behaviour; this is the only way that a
factor that fits can lead to undefined behaviour. -/
theorem overflow_missed {sll : ℤ → ℤ} (hs : Converts sll) {rhs : ℤ} (hr : Fits rhs) (v : Vec ℤ) :
    llongMul true sll rhs v = .error .undefined ↔
      rhs * v.x ≤ 2 ^ 63 - 1 ∧ rhs * v.y ≤ 2 ^ 63 - 1 ∧ (rhs * v.x < -2 ^ 63 ∨ rhs * v.y < -2 ^ 63) := by
  by_cases h : 2 ^ 63 - 1 < rhs * v.x ∨ 2 ^ 63 - 1 < rhs * v.y
  · rw [overflow_reported_partial sll h]
    constructor
    · intro k
      cases k
    · omega
  · by_cases k : Fits (rhs * v.x) ∧ Fits (rhs * v.y)
    · rw [mul_correct hs hr k.1 k.2]
      obtain ⟨⟨k1, -⟩, k2, -⟩ := k
      constructor
      · intro k
        cases k
      · omega
    · refine iff_of_true ?_ (by unfold Fits at k; omega)
      unfold llongMul
      simp only [Bool.true_and, decide_eq_true_eq]
      rw [if_neg (by omega), if_neg (by omega), hs _ hr]
      by_cases kx : Fits (rhs * v.x)
      · rw [product_ok (by rwa [mul_comm]), product_error]
        rw [mul_comm]
        exact fun ky => k ⟨kx, ky⟩
      · rw [product_error (by rwa [mul_comm])]

/-- Without assertions, overflow is undefined behaviour. -/
theorem release_undefined {sll : ℤ → ℤ} (hs : Converts sll) {rhs : ℤ} (hr : Fits rhs) {v : Vec ℤ}
    (h : ¬(Fits (rhs * v.x) ∧ Fits (rhs * v.y))) : llongMul false sll rhs v = .error .undefined := by
  unfold llongMul
  simp only [Bool.false_and, Bool.false_eq_true, if_false]
  rw [hs _ hr]
  by_cases kx : Fits (rhs * v.x)
  · rw [product_ok (by rwa [mul_comm]), product_error]
    rw [mul_comm]
    exact fun ky => h ⟨kx, ky⟩
  · rw [product_error (by rwa [mul_comm])]

/-- The conversion that takes the lower 64 bits. -/
def lowBits (n : ℤ) : ℤ := Int.bmod n (2 ^ 64)

theorem lowBits_converts : Converts lowBits := by
  rintro n ⟨h1, h2⟩
  unfold lowBits
  rw [Int.bmod_eq_of_le] <;> omega

/-- The property fails if the conversion truncates: a factor that does not fit is then not noticed. (The conversion is in a library
that is not part of the repository.) Here, the product of a negative number
with 2 ^ 64 + 1 is that number. -/
theorem truncated : llongMul true lowBits (2 ^ 64 + 1) ⟨-3, 0⟩ = .ok ⟨-3, 0⟩ ∧ (2 ^ 64 + 1) * (-3 : ℤ) ≠ -3 := by
  decide +kernel

/-- Multiplication by an `int` is exact, or there is an overflow. -/
theorem mul_int_correct (rhs : ℤ) (v : Vec ℤ) : llongMulInt rhs v = .ok ⟨rhs * v.x, rhs * v.y⟩ ∧ Fits (rhs * v.x) ∧ Fits (rhs * v.y) ∨
    llongMulInt rhs v = .error .undefined ∧ ¬(Fits (rhs * v.x) ∧ Fits (rhs * v.y)) := by
  unfold llongMulInt
  by_cases kx : Fits (rhs * v.x)
  · rw [product_ok (by rwa [mul_comm])]
    by_cases ky : Fits (rhs * v.y)
    · rw [product_ok (by rwa [mul_comm]), mul_comm v.x, mul_comm v.y]
      exact .inl ⟨rfl, kx, ky⟩
    · rw [product_error (by rwa [mul_comm])]
      exact .inr ⟨rfl, fun k => ky k.2⟩
  · rw [product_error (by rwa [mul_comm])]
    exact .inr ⟨rfl, fun k => kx k.1⟩

/-- Division by an `int` undoes the multiplication. -/
theorem div_mul_int {rhs : ℤ} (hr : rhs ≠ 0) {v w : Vec ℤ} (h : llongMulInt rhs v = .ok w)
    (hm : ¬(rhs = -1 ∧ (w.x = -2 ^ 63 ∨ w.y = -2 ^ 63))) : llongDivInt rhs w = .ok v := by
  rcases mul_int_correct rhs v with ⟨k, -⟩ | ⟨k, -⟩
  · rw [h] at k
    cases k
    unfold llongDivInt
    rw [if_neg hr, if_neg hm]
    simp only [Int.mul_tdiv_cancel_left _ hr]
  · rw [h] at k
    cases k

/-- Concrete cases. -/
example : Converts lowBits ∧ Fits 4 ∧ llongMul true lowBits 4 ⟨2, -3⟩ = .ok ⟨8, -12⟩ ∧
    llongMul true lowBits 4 ⟨2 ^ 62, 0⟩ = .error .logicError ∧ llongMul true lowBits 4 ⟨-2 ^ 62, 0⟩ = .error .undefined ∧
    llongMul false lowBits 4 ⟨2 ^ 62, 0⟩ = .error .undefined ∧ llongMulInt 3 ⟨5, -7⟩ = .ok ⟨15, -21⟩ ∧
    llongDivInt 3 ⟨15, -21⟩ = .ok ⟨5, -7⟩ := by
  refine ⟨lowBits_converts, by unfold Fits; omega, ?_, ?_, ?_, ?_, ?_, ?_⟩ <;> decide +kernel

end Verif.C154
