import Verif.Model.Vertical
import Verif.Spec.FlatTriangulation

/-!
# Specification of vertical directions

We think of a flow in direction `v`. Faces are to the left of their sides.
-/

namespace Verif.Spec

variable {T : Type} [CommRing T] [LinearOrder T]

/-- The flow enters the face to the left of `x` through `x`. -/
def Enters (S : FlatTri T) (v : Vec T) (x : HE) : Prop := 0 < Vec.cross (S.vec x) v

/-- The flow leaves the face to the left of `x` through `x`. -/
def Leaves (S : FlatTri T) (v : Vec T) (x : HE) : Prop := Vec.cross (S.vec x) v < 0

/-- The half edge points into the direction of the flow. -/
def PointsUp (S : FlatTri T) (v : Vec T) (x : HE) : Prop := Vec.cross (S.vec x) v = 0 ∧ 0 < Vec.dot (S.vec x) v

/-- The half edge points into the direction opposite to the flow. -/
def PointsDown (S : FlatTri T) (v : Vec T) (x : HE) : Prop := Vec.cross (S.vec x) v = 0 ∧ Vec.dot (S.vec x) v < 0

/-- `x` is a side of the face of `e`. -/
def SideOf (S : FlatTri T) (e x : HE) : Prop :=
  x = e ∨ x = S.tri.nextInFace e ∨ x = S.tri.nextInFace (S.tri.nextInFace e)

/-- How the flow goes through the face of `e`. -/
def FaceKind (S : FlatTri T) (v : Vec T) (e : HE) : Triangle → Prop
  /- In through one side and out through two. -/
  | .backward => ∃ x, SideOf S e x ∧ Enters S v x ∧ Leaves S v (S.tri.nextInFace x) ∧
      Leaves S v (S.tri.nextInFace (S.tri.nextInFace x))
  /- In through two sides and out through one. -/
  | .forward => ∃ x, SideOf S e x ∧ Leaves S v x ∧ Enters S v (S.tri.nextInFace x) ∧
      Enters S v (S.tri.nextInFace (S.tri.nextInFace x))
  /- In through one side, out through one side, with a vertical side on the left, i.e., one with the face on its right when
  looking into the direction of the flow. -/
  | .leftVertical => ∃ x, SideOf S e x ∧ PointsDown S v x ∧ Enters S v (S.tri.nextInFace x) ∧
      Leaves S v (S.tri.nextInFace (S.tri.nextInFace x))
  /- The same with a vertical side on the right. -/
  | .rightVertical => ∃ x, SideOf S e x ∧ PointsUp S v x ∧ Leaves S v (S.tri.nextInFace x) ∧
      Enters S v (S.tri.nextInFace (S.tri.nextInFace x))
  | .collapsedToTwoFaces => False

/-- The horizontal length of a half edge, in multiples of the length of `v`. -/
def horizontalLength (S : FlatTri T) (v : Vec T) (x : HE) : T := |Vec.cross (S.vec x) v|

/-- The half edge is horizontally at least as long as the other sides of both its faces. -/
def IsLarge (S : FlatTri T) (v : Vec T) (e : HE) : Prop :=
  ∀ x, SideOf S e x ∨ SideOf S (neg e) x → horizontalLength S v x ≤ horizontalLength S v e

/-- Half edges that can be reached without crossing vertical edges. -/
inductive Joined (S : FlatTri T) (v : Vec T) (x : HE) : HE → Prop
  | refl : Joined S v x x
  | across {y} : Joined S v x y → Vec.cross (S.vec y) v ≠ 0 → Joined S v x (neg y)
  | face {y z} : Joined S v x y → Vec.cross (S.vec y) v ≠ 0 → SideOf S y z → Joined S v x z

end Verif.Spec
