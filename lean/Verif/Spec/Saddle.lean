import Verif.Spec.FlatTriangulation

/-!
# Specification: turning from a direction at a vertex to another one
-/

namespace Verif.Spec

open Vec

variable {T : Type} [CommRing T] [LinearOrder T]

/-- The direction `v` is in the corner between `e`, inclusive, and the next half edge, exclusive, at an angle of `σ` from
`e`. -/
def InCorner (f : T →+* ℝ) (S : FlatTri T) (θ : HE → ℝ) (e : HE) (σ : ℝ) (v : Vec T) : Prop :=
  0 ≤ σ ∧ σ < θ e ∧ Turns ((S.vec e).map f) σ (v.map f)

/-- Starting from the direction at an angle of `σ` in the corner at `e` and turning counterclockwise by `α`, one gets to
the direction at an angle of `τ` in the corner at `e'`. -/
def TurnsTo (S : FlatTri T) (θ : HE → ℝ) (e : HE) (σ : ℝ) (α : ℝ) (e' : HE) (τ : ℝ) : Prop :=
  0 ≤ α ∧ ∃ n, S.tri.nextAtVertex^[n] e = e' ∧ σ + α = arc S θ e n + τ

end Verif.Spec
