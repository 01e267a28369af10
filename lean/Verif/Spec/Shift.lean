import Verif.Model.Shift
import Verif.Spec.FlatTriangulation
import Verif.Lemmas.Vector
import Mathlib.Data.Real.Basic

/-!
# Specification of shifts of half edges
-/

namespace Verif.Spec

open Vec

variable {T : Type} [CommRing T] [LinearOrder T] [IsStrictOrderedRing T]

/-- A shift of the half edges of a surface such that faces are closed at all times. -/
structure IsShift (S : FlatTri T) (shift : HE → Vec T) : Prop where
  odd : ∀ e ∈ S.tri.halfEdges, shift (neg e) = -shift e
  closed : ∀ e ∈ S.tri.halfEdges, shift e + shift (S.tri.nextInFace e) + shift (S.tri.nextInFace (S.tri.nextInFace e)) = 0

/-- The vector of the half edge at time `t`. -/
def shiftedAt (f : T →+* ℝ) (S : FlatTri T) (shift : HE → Vec T) (t : ℝ) (e : HE) : Vec ℝ := (S.vec e).map f + t • (shift e).map f

/-- The area (times two) of the triangle at the left of a half edge at time `t`. -/
def areaAt (f : T →+* ℝ) (S : FlatTri T) (shift : HE → Vec T) (t : ℝ) (e : HE) : ℝ :=
  cross (shiftedAt f S shift t e) (shiftedAt f S shift t (S.tri.nextInFace e))

/-- The time when the area of a triangle vanishes first. -/
def VanishesFirst (f : T →+* ℝ) (S : FlatTri T) (shift : HE → Vec T) (e : HE) (t : ℝ) : Prop :=
  0 ≤ t ∧ t ≤ 1 ∧ areaAt f S shift t e = 0 ∧ ∀ s, 0 ≤ s → s < t → areaAt f S shift s e ≠ 0

/-- The approximation of the product of a vector with the zero vector is exactly zero so that they are seen to be orthogonal. (This is not
a consequence of the approximations being sound, see C60.) -/
def ZeroIsExact {K : Type*} [Field K] [LinearOrder K] [IsStrictOrderedRing K] (A : Option (Approx T K)) : Prop :=
  ∀ v : Vec T, Vec.orientation A v 0 = .orthogonal

/-- The approximations of a root enclose the first root in the unit interval. -/
def EnclosesRoot (f : T →+* ℝ) (root : Quadratic T → ℕ → Ball ℝ) : Prop :=
  ∀ (p : Quadratic T) (t : ℝ), 0 ≤ t → t ≤ 1 → f p.a * t ^ 2 + f p.b * t + f p.c = 0 →
    (∀ s, 0 ≤ s → s < t → f p.a * s ^ 2 + f p.b * s + f p.c ≠ 0) → ∀ n, (root p n).Mem t

/-- The balls enclose a number and get arbitrarily small. -/
def Converges (b : ℕ → Ball ℝ) (x : ℝ) : Prop := (∀ n, (b n).Mem x) ∧ ∀ ε > 0, ∃ N, ∀ n ≥ N, (b n).rad < ε

/-- Arithmetic gets arbitrarily precise. -/
structure Converging (f : T →+* ℝ) (A : ℕ → Approx T ℝ) : Prop where
  arb : ∀ x, Converges (fun n => (A n).arb x) (f x)
  add : ∀ {a b x y}, Converges a x → Converges b y → Converges (fun n => (A n).add (a n) (b n)) (x + y)
  mul : ∀ {a b x y}, Converges a x → Converges b y → Converges (fun n => (A n).mul (a n) (b n)) (x * y)

/-- With this arithmetic of fixed precision it is possible to decide whether collinear vectors point into the same direction when their
coordinates are known well enough. (Since all summands of the scalar product have the same sign, there is no cancellation.) -/
def Decisive (F : Approx T ℝ) : Prop :=
  ∀ {a b c d x y z w}, Converges a x → Converges b y → Converges c z → Converges d w → x * w - y * z = 0 → x * z + y * w ≠ 0 →
    ∃ n, (F.add (F.mul (a n) (c n)) (F.mul (b n) (d n))).gt (Ball.exact 0) ≠ none

/-- The approximations converge to the first root in the unit interval. -/
def ConvergesToRoot (f : T →+* ℝ) (root : Quadratic T → ℕ → Ball ℝ) : Prop :=
  ∀ (p : Quadratic T) (t : ℝ), 0 ≤ t → t ≤ 1 → f p.a * t ^ 2 + f p.b * t + f p.c = 0 →
    (∀ s, 0 ≤ s → s < t → f p.a * s ^ 2 + f p.b * s + f p.c ≠ 0) → Converges (root p) t

end Verif.Spec
