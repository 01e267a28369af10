import Verif.Lemmas.Vector
import Mathlib.Algebra.Order.Ring.Rat
import Mathlib.Tactic.NormNum

/-!
# C61: equality of approximate vectors

# C62: division of integer vectors by large integers
-/

namespace Verif.C61

open Vec

variable {K : Type*} [Field K] [LinearOrder K] [IsStrictOrderedRing K]

/-- C61 for vectors whose second coordinate equals the first coordinate: a definite answer of `==` is right for all the
vectors enclosed. Missing: all other vectors, see `eq_wrong`. -/
theorem eq_correct_partial {v w : Vec (Ball K)} (hv : v.x = v.y) {p q : Vec K} (h1 : v.x.Mem p.x) (h2 : v.y.Mem p.y)
    (h3 : w.x.Mem q.x) (h4 : w.y.Mem q.y) {r : Bool} (h : eqArb v w = some r) : (r = true ↔ p = q) := by
  unfold eqArb at h
  rw [hv] at h h1
  split at h
  · cases h
  · rename_i hx
    cases h
    have := of_decide_eq_false (Ball.eq_sound h1 h3 hx).symm
    simp only [Bool.false_eq_true, false_iff]
    rintro rfl
    exact this rfl
  · rename_i hx
    have hx := of_decide_eq_true (Ball.eq_sound h1 h3 hx).symm
    split at h
    · cases h
    · rename_i hy
      cases h
      have := of_decide_eq_false (Ball.eq_sound h2 h4 hy).symm
      simp only [Bool.false_eq_true, false_iff]
      rintro rfl
      exact this rfl
    · rename_i hy
      cases h
      have hy := of_decide_eq_true (Ball.eq_sound h2 h4 hy).symm
      simp only [true_iff]
      exact Vec.ext hx hy

/-- C61 fails: the exact vector (1, 2) is different from itself, and equal to (1, 1). -/
theorem eq_wrong : eqArb (K := ℚ) ⟨Ball.exact 1, Ball.exact 2⟩ ⟨Ball.exact 1, Ball.exact 2⟩ = some false ∧
    eqArb (K := ℚ) ⟨Ball.exact 1, Ball.exact 2⟩ ⟨Ball.exact 1, Ball.exact 1⟩ = some true := by
  norm_num [eqArb, Ball.eq, Ball.exact, Ball.overlaps]

/-- The hypotheses are met, with both answers. -/
example : eqArb (K := ℚ) ⟨Ball.exact 1, Ball.exact 1⟩ ⟨Ball.exact 1, Ball.exact 1⟩ = some true ∧
    eqArb (K := ℚ) ⟨Ball.exact 1, Ball.exact 1⟩ ⟨Ball.exact 1, Ball.exact 3⟩ = some false := by
  norm_num [eqArb, Ball.eq, Ball.exact, Ball.overlaps]

/-! ### C62 -/

/-- `x` is a `long long`. -/
def IsLLong (x : ℤ) : Prop := -2 ^ 63 ≤ x ∧ x ≤ 2 ^ 63 - 1

/-- C62 for divisors which are a `long long` other than the largest one, and for divisors which are larger than the
absolute value of any coordinate. Missing: see `div_wrong`, and divisors smaller than any `long long`. -/
theorem div_correct_partial {x n : ℤ} (hx : IsLLong x) (hn : n ≠ 0)
    (h : (-2 ^ 63 ≤ n ∧ n < 2 ^ 63 - 1) ∨ 2 ^ 63 < n) (hmin : ¬ (x = -2 ^ 63 ∧ n = -1)) :
    llongDiv x n = .ok (x.tdiv n) := by
  obtain ⟨h1, h2⟩ := hx
  unfold llongDiv llongMax
  rcases h with h | h
  · rw [if_neg (by omega), if_neg (by omega), if_neg hn, if_neg (by omega)]
  · rw [if_pos (by omega)]
    congr 1
    symm
    rw [← Int.natAbs_eq_zero, Int.natAbs_tdiv]
    exact Nat.div_eq_of_lt (by omega)

/-- C62 fails: dividing by the largest `long long` always gives zero, but it should give one if the coordinate is the
same number; dividing by the next number gives zero, but it should give -1 for the smallest `long long`. -/
theorem div_wrong : llongDiv (2 ^ 63 - 1) (2 ^ 63 - 1) = .ok 0 ∧ Int.tdiv (2 ^ 63 - 1) (2 ^ 63 - 1) = 1 ∧
    llongDiv (-2 ^ 63) (2 ^ 63) = .ok 0 ∧ Int.tdiv (-2 ^ 63) (2 ^ 63) = -1 := by
  refine ⟨?_, ?_, ?_, ?_⟩ <;> decide +kernel

/-- The hypotheses are met. -/
example : IsLLong (-7) ∧ llongDiv (-7) 2 = .ok (-3) := by
  refine ⟨?_, ?_⟩
  · unfold IsLLong; norm_num
  · decide +kernel

end Verif.C61
