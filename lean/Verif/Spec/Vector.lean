import Verif.Model.Vector
import Mathlib.Analysis.SpecialFunctions.Trigonometric.Basic

/-!
# Plane geometry

The notions of geometry used to state what is expected of vectors.
-/

namespace Verif

/-- The reverse of a turn. -/
def CCW.reverse : CCW → CCW
  | .clockwise => .counterclockwise
  | .collinear => .collinear
  | .counterclockwise => .clockwise

namespace Vec

/-- The cross product. -/
def cross {T : Type*} [CommRing T] (v w : Vec T) : T := v.x * w.y - v.y * w.x

/-- The vector with real coordinates. -/
def map {T K : Type*} (f : T → K) (v : Vec T) : Vec K := ⟨f v.x, f v.y⟩

/-- Counterclockwise rotation by an angle. -/
noncomputable def rotate (θ : ℝ) (v : Vec ℝ) : Vec ℝ :=
  ⟨Real.cos θ * v.x - Real.sin θ * v.y, Real.sin θ * v.x + Real.cos θ * v.y⟩

/-- The vector `w` is obtained from `v` by a counterclockwise turn by the angle `θ`, up to its length. -/
def Turns (v : Vec ℝ) (θ : ℝ) (w : Vec ℝ) : Prop := ∃ r : ℝ, 0 < r ∧ w = r • rotate θ v

/-- The vectors point in the same direction. -/
def SameDirection {T : Type*} [CommRing T] [LinearOrder T] (v w : Vec T) : Prop := cross v w = 0 ∧ 0 < dot v w

/-- A vector of balls encloses a vector. -/
def Encloses {T K : Type*} [CommRing T] [LinearOrder T] [Field K] [LinearOrder K] [IsStrictOrderedRing K]
    (A : Approx T K) (w : Vec (Ball K)) (v : Vec T) : Prop :=
  w.x.Mem (A.value v.x) ∧ w.y.Mem (A.value v.y)

end Vec

end Verif
