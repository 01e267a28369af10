import Verif.Model.RetriangulationTurn
import Verif.Spec.Path
import Verif.Spec.FlatTriangulation
import Verif.Spec.SaddleSearch

/-!
# Specification: straight paths that only meet marked points
-/

namespace Verif.Spec

open Vec Real

variable {T : Type} [CommRing T] [LinearOrder T]

/-- The half edge starts at a vertex whose total angle is 2π. -/
def MarkedPoint (f : T →+* ℝ) (S : FlatTri T) (e : HE) : Prop :=
  ∃ V ∈ S.tri.vertexes, e ∈ V ∧ ∀ θ : HE → ℝ, Corners f S V θ → ∑ x ∈ V, θ x = 2 * π

/-- All segments of a path point in the same direction, and the path only crosses marked points. -/
def Straight (f : T →+* ℝ) (S : FlatTri T) : List Saddle → Prop
  | [] => True
  | s :: path => ∀ t ∈ path, SameDirection (S.saddleVector s) (S.saddleVector t) ∧ MarkedPoint f S t.source

/-- The saddle connection `b` starts where the saddle connection `a` ends, and one turns by an angle of π counterclockwise from the
end of `a` to get to the start of `b`. -/
def Continues (f : T →+* ℝ) (S : FlatTri T) (θ : HE → ℝ) (a b : Saddle) : Prop :=
  ∃ σ τ, InCorner f S θ a.target σ (-S.saddleVector a) ∧ InCorner f S θ b.source τ (S.saddleVector b) ∧
    TurnsTo S θ a.target σ π b.source τ

/-- Saddle connections which form a straight segment with vector `v` that starts in the corner at the half edge `e`. -/
structure StraightSegment (f : T →+* ℝ) (S : FlatTri T) (θ : HE → ℝ) (e : HE) (v : Vec T) (l : List Saddle) : Prop where
  connections : ∀ c ∈ l, c.source < S.tri.size ∧ IsSaddleConnection S c.source (S.saddleVector c) c.target
  direction : ∀ c ∈ l, SameDirection v (S.saddleVector c)
  starts : ∃ c, l.head? = some c ∧ c.source = e
  straight : l.IsChain (Continues f S θ)
  vector : (l.map S.saddleVector).sum = v

/-- The vertex `V` of the domain of a retriangulation corresponds to the vertex `V'` of the codomain: they have the same total angle, and
the relation at `V` consists of saddle connections at these vertices which have the same direction. (That direction is at an angle
of `σ` and `σ'` in its corners.) -/
structure Corresponds (f : T →+* ℝ) (R : GenericRetriangulation T) (θ θ' : HE → ℝ) (V V' : Finset HE) (c c' : Saddle) (σ σ' : ℝ) :
    Prop where
  vertex : V ∈ R.domain.tri.vertexes
  vertex' : V' ∈ R.codomain.tri.vertexes
  total : ∑ x ∈ V, θ x = ∑ x ∈ V', θ' x
  relation : R.relation V = some (c, c')
  source : c.source ∈ V
  source' : c'.source ∈ V'
  corner : InCorner f R.domain θ c.source σ (R.domain.saddleVector c)
  corner' : InCorner f R.codomain θ' c'.source σ' (R.codomain.saddleVector c')
  direction : SameDirection (R.domain.saddleVector c) (R.codomain.saddleVector c')

end Verif.Spec
