import Verif.Model.LinearDeformation
import Verif.Spec.Point

/-!
# Specification of the images of positions and directions under a linear map

A linear map sends a triangle of the surface to a triangle with the same half edges. When the map does not preserve the
orientation, then the image of that triangle is to the right of the images of its half edges.
-/

namespace Verif.Spec

open Vec

variable {T : Type} [CommRing T] [LinearOrder T]

/-- Where a position ends up on the image of the surface under a linear map with determinant `det`: the corners have the
same weights as before. When the orientation is reversed, the image of the triangle is the one to the left of the
opposite half edge. -/
def imagePosition (det : T) (p : Point T) : Point T := if 0 < det then p else ⟨neg p.face, p.b, p.a, p.c⟩

/-- The corner `e'` at which a direction starts on the image of the surface under a linear map with determinant `det` when
it was in the corner between `e`, inclusive, and the next half edge, exclusive: that is the same corner; but when the
orientation is reversed then that corner is now between the next half edge and `e`, so it is only at `e` if it is in the
direction of `e`. -/
def ImageCorner (S : FlatTri T) (det : T) (e : HE) (v : Vec T) (e' : HE) : Prop :=
  (0 < det ∨ cross (S.vec e) v = 0 → e' = e) ∧ (det < 0 ∧ cross (S.vec e) v ≠ 0 → e' = S.tri.nextAtVertex e)

/-- A vector is in the corner between `e`, inclusive, and the next half edge, exclusive. (The angle at a corner is less than
half a turn.) -/
def LeavesCorner (S : FlatTri T) (e : HE) (v : Vec T) : Prop :=
  e < S.tri.size ∧ 0 ≤ cross (S.vec e) v ∧ cross (S.vec (S.tri.nextAtVertex e)) v < 0

/-- The source and the target of a segment are in agreement with its vector. -/
def IsSegment (S : FlatTri T) (s : Saddle) : Prop :=
  LeavesCorner S s.source (S.saddleVector s) ∧ LeavesCorner S s.target (-S.saddleVector s)

/-- The segment `s'` is the image of the segment `s` under a linear map. -/
structure IsImage (S S' : FlatTri T) (a b c d : T) (s s' : Saddle) : Prop where
  vector : S'.saddleVector s' = (S.saddleVector s).applyMatrix a b c d
  source : ImageCorner S (a * d - b * c) s.source (S.saddleVector s) s'.source
  target : ImageCorner S (a * d - b * c) s.target (-S.saddleVector s) s'.target

end Verif.Spec
