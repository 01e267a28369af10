import Verif.Model.FlowAnswers
import Mathlib.Data.Real.Basic
import Mathlib.Algebra.Algebra.Rat
import Mathlib.LinearAlgebra.LinearIndependent.Defs
import Mathlib.Algebra.BigOperators.Group.Finset.Basic

/-!
# What is expected of the answers of flow decompositions
-/

namespace Verif.Spec

variable {T : Type} [CommRing T] [LinearOrder T]

/-- It is known of each component whether it is a cylinder. -/
def Determined (l : List (FlowPiece T)) : Prop := ∀ c ∈ l, c.cylinder ≠ none

/-- `l'` is what a further decomposition can make of `l`: components which are known to be a cylinder or known not to be
one do not change, other components are replaced by some components which together have the same area. -/
def FurtherDecomposed (l l' : List (FlowPiece T)) : Prop :=
  ∃ ls : List (List (FlowPiece T)), l'.Perm ls.flatten ∧
    List.Forall₂ (fun c cs => (c.cylinder ≠ none → cs = [c]) ∧ cs ≠ [] ∧ (cs.map FlowPiece.area2).sum = c.area2) l ls

/-- Two real numbers are rational multiples of each other. -/
def Commensurable (x y : ℝ) : Prop := ∃ p q : ℤ, p ≠ 0 ∧ q ≠ 0 ∧ p * x = q * y

/-- The modulus of a cylinder up to a factor two: the area divided by the square of the circumference. -/
noncomputable def modulus (f : T →+* ℝ) (c : FlowPiece T) : ℝ :=
  f c.area2 / (f c.holonomy0.x ^ 2 + f c.holonomy0.y ^ 2)

/-- All components are cylinders and their moduli are commensurable. -/
def Parabolic (f : T →+* ℝ) (l : List (FlowPiece T)) : Prop :=
  (∀ c ∈ l, c.cylinder = some true) ∧ ∀ c ∈ l, ∀ d ∈ l, Commensurable (modulus f c) (modulus f d)

/-- Components have a positive area, and their holonomy is not zero. -/
def Proper (l : List (FlowPiece T)) : Prop := ∀ c ∈ l, 0 < c.area2 ∧ c.holonomy0 ≠ 0

/-- The function returns the coefficients of two numbers with respect to some elements which are linearly independent over
the rationals. -/
def IsCoefficients (f : T →+* ℝ) (coefficients : T → T → List ℚ × List ℚ) : Prop :=
  ∀ x y, ∃ (n : ℕ) (b : Fin n → ℝ), LinearIndependent ℚ b ∧ (coefficients x y).1.length = n ∧
    (coefficients x y).2.length = n ∧
    f x = ∑ i : Fin n, (((coefficients x y).1.getD i 0 : ℚ) : ℝ) * b i ∧
    f y = ∑ i : Fin n, (((coefficients x y).2.getD i 0 : ℚ) : ℝ) * b i

end Verif.Spec
