import Verif.Model.FlatTriangulation
import Verif.Spec.Triangulation
import Verif.Spec.Vector

/-!
# What is expected of flat triangulations
-/

namespace Verif.Spec

variable {T : Type} [CommRing T] [LinearOrder T]

/-- `S` is a surface glued from triangles in the plane, which are oriented counterclockwise. -/
structure IsFlat (S : FlatTri T) : Prop where
  /-- The underlying surface is a triangulated surface. -/
  triangulation : IsTriangulation S.tri
  /-- Edges have the same vector seen from both sides. -/
  odd : ∀ e ∈ S.tri.halfEdges, S.vec (neg e) = -S.vec e
  /-- The sides of faces sum to zero. -/
  closed : ∀ e ∈ S.tri.halfEdges, S.tri.boundary e = false →
    S.vec e + S.vec (S.tri.nextInFace e) + S.vec (S.tri.nextInFace (S.tri.nextInFace e)) = 0
  /-- There is a turn to the left in each corner of a face. -/
  oriented : ∀ e ∈ S.tri.halfEdges, S.tri.boundary e = false → 0 < Vec.cross (S.vec e) (S.vec (S.tri.nextInFace e))

/-- A flat surface without boundary. -/
structure Closed (dbg : Bool) (S : FlatTri T) : Prop where
  reachable : S.tri.Reachable dbg
  flat : IsFlat S
  closed : S.tri.hasBoundary = false

/-- A polygon given by its sides is strictly convex: there is a turn to the left at each corner. (For quadrilaterals this
is what convexity means; for polygons with more sides the total turn would have to be one full turn.) -/
def StrictlyConvex4 (a b c d : Vec T) : Prop :=
  0 < Vec.cross a b ∧ 0 < Vec.cross b c ∧ 0 < Vec.cross c d ∧ 0 < Vec.cross d a

/-- The sides of the quadrilateral formed by the two triangles at `e`, counterclockwise from the source of `e`, form a
strictly convex quadrilateral. -/
def ConvexAt (S : FlatTri T) (e : HE) : Prop :=
  let a := S.tri.nextInFace (neg e)
  let b := S.tri.nextInFace a
  let c := S.tri.nextInFace e
  let d := S.tri.nextInFace c
  StrictlyConvex4 (S.vec a) (S.vec b) (S.vec c) (S.vec d)

/-- For the half edges `e` at a vertex, `θ e` is the angle of the corner between `e` and the next half edge at the
vertex. -/
def Corners (f : T →+* ℝ) (S : FlatTri T) (V : Finset HE) (θ : HE → ℝ) : Prop :=
  ∀ e ∈ V, 0 ≤ θ e ∧ θ e < 2 * Real.pi ∧ Vec.Turns ((S.vec e).map f) (θ e) ((S.vec (S.tri.nextAtVertex e)).map f)

/-- The total angle of `n` consecutive corners starting with the one at `e`. -/
def arc (S : FlatTri T) (θ : HE → ℝ) (e : HE) (n : ℕ) : ℝ := ∑ i ∈ Finset.range n, θ (S.tri.nextAtVertex^[i] e)

/-- Starting from the half edge `e` and turning counterclockwise around its source by `α`, which can be any angle,
possibly negative or more than a full turn, one ends up in the corner between `e'`, inclusive, and the next half edge,
exclusive. (From some half edge, `e` is reached after `m` and `e'` after `n` corners.) -/
def TurnedInto (S : FlatTri T) (θ : HE → ℝ) (e : HE) (α : ℝ) (e' : HE) : Prop :=
  ∃ x m n, S.tri.nextAtVertex^[m] x = e ∧ S.tri.nextAtVertex^[n] x = e' ∧
    arc S θ x n ≤ arc S θ x m + α ∧ arc S θ x m + α < arc S θ x (n + 1)

/-- The first angle at which one gets from direction `u` to direction `v` turning counterclockwise or clockwise; the angle
zero only counts if it is not excluded. -/
def FirstTurn (u : Vec ℝ) (ccw : CCW) (v : Vec ℝ) (exclude : Bool) (α : ℝ) : Prop :=
  Vec.Turns u α v ∧ match ccw, exclude with
    | .counterclockwise, false => 0 ≤ α ∧ α < 2 * Real.pi
    | .counterclockwise, true => 0 < α ∧ α ≤ 2 * Real.pi
    | .clockwise, false => -(2 * Real.pi) < α ∧ α ≤ 0
    | .clockwise, true => -(2 * Real.pi) ≤ α ∧ α < 0
    | .collinear, _ => False

end Verif.Spec
