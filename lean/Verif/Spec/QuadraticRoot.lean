import Verif.Model.QuadraticRoot
import Mathlib.Data.Real.Sqrt

/-!
# Specification of roots of quadratic polynomials
-/

namespace Verif.Spec

variable {T : Type} [CommRing T] [LinearOrder T]

/-- The number is a root of the polynomial. -/
def IsRoot (f : T →+* ℝ) (p : Quadratic T) (t : ℝ) : Prop := f p.a * t ^ 2 + f p.b * t + f p.c = 0

/-- The smallest root in the unit interval. -/
def FirstRoot (f : T →+* ℝ) (p : Quadratic T) (t : ℝ) : Prop :=
  0 ≤ t ∧ t ≤ 1 ∧ IsRoot f p t ∧ ∀ s, 0 ≤ s → s < t → ¬ IsRoot f p s

/-- The discriminant. -/
def disc (f : T →+* ℝ) (p : Quadratic T) : ℝ := f p.b * f p.b - 4 * f p.a * f p.c

/-- The root with the positive square root of the discriminant. -/
noncomputable def plusRoot (f : T →+* ℝ) (p : Quadratic T) : ℝ := (-f p.b + √(disc f p)) / (2 * f p.a)

/-- The root with the negative square root of the discriminant. -/
noncomputable def minusRoot (f : T →+* ℝ) (p : Quadratic T) : ℝ := (-f p.b - √(disc f p)) / (2 * f p.a)

/-- The balls that are computed enclose the exact results. -/
structure Enclosing (f : T →+* ℝ) (B : RootBalls T ℝ) (p : Quadratic T) : Prop where
  linear : p.b ≠ 0 → ∀ n s, B.linear p n = some s → s.Mem (-f p.c / f p.b)
  double : p.a ≠ 0 → ∀ n s, B.double p n = some s → s.Mem (-f p.b / (2 * f p.a))
  plus : p.a ≠ 0 → 0 < disc f p → ∀ n s, B.plus p n = some s → s.Mem (plusRoot f p)
  minus : p.a ≠ 0 → 0 < disc f p → ∀ n s, B.minus p n = some s → s.Mem (minusRoot f p)

/-- Balls are finite eventually and get arbitrarily small. -/
def Shrinking (b : ℕ → Option (Ball ℝ)) : Prop := ∀ ε > 0, ∃ N, ∀ n ≥ N, ∃ s, b n = some s ∧ s.rad < ε

/-- The balls get arbitrarily small whenever the exact results are defined. -/
structure Refining (f : T →+* ℝ) (B : RootBalls T ℝ) (p : Quadratic T) : Prop where
  linear : p.b ≠ 0 → Shrinking (B.linear p)
  double : p.a ≠ 0 → Shrinking (B.double p)
  plus : p.a ≠ 0 → 0 < disc f p → Shrinking (B.plus p)
  minus : p.a ≠ 0 → 0 < disc f p → Shrinking (B.minus p)

/-- From some precision on, the balls for one of the roots neither contain the other root nor meet the balls for the other root. -/
structure Apart (f : T →+* ℝ) (B : RootBalls T ℝ) (p : Quadratic T) (N : ℕ) : Prop where
  plus : ∀ n ≥ N, ∀ s, B.plus p n = some s → ¬ s.Mem (minusRoot f p)
  minus : ∀ n ≥ N, ∀ s, B.minus p n = some s → ¬ s.Mem (plusRoot f p)
  disjoint : ∀ n ≥ N, ∀ m ≥ N, ∀ s s', B.plus p n = some s → B.minus p m = some s' → ∀ x, ¬ (s.Mem x ∧ s'.Mem x)

end Verif.Spec
