import Verif.Model.Tighten
import Verif.Spec.Retriangulation

/-!
# Specification: tight paths
-/

namespace Verif.Spec

open Vec Real

variable {T : Type} [CommRing T] [LinearOrder T]

/-- Two half edges start at the same vertex. -/
def StartTogether (S : FlatTri T) (e e' : HE) : Prop := ∃ k, S.tri.nextAtVertex^[k] e = e'

/-- A path starts at the vertex where the half edge `e` starts and ends at the vertex where the half edge `e'` starts. Each segment starts
where the previous segment ends. -/
def PathFrom (S : FlatTri T) : HE → List Saddle → HE → Prop
  | e, [], e' => StartTogether S e e'
  | e, c :: p, e' => StartTogether S e c.source ∧ PathFrom S c.target p e'

/-- The sum of the vectors of the segments of a path. -/
def holonomy (S : FlatTri T) (p : List Saddle) : Vec T := (p.map S.saddleVector).sum

/-- One turns at least by π on both sides when going from the segment `a` to the next segment `b`. -/
def TightTurn (f : T →+* ℝ) (S : FlatTri T) (θ : HE → ℝ) (a b : Saddle) : Prop :=
  ∃ V ∈ S.tri.vertexes, a.target ∈ V ∧ b.source ∈ V ∧ ∃ σ τ α, InCorner f S θ a.target σ (-S.saddleVector a) ∧
    InCorner f S θ b.source τ (S.saddleVector b) ∧ TurnsTo S θ a.target σ α b.source τ ∧ π ≤ α ∧ α + π ≤ ∑ x ∈ V, θ x

end Verif.Spec
