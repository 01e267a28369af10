import Verif.Model.SaddleSearch
import Verif.Spec.LinearDeformation
import Verif.Spec.SaddleConnections

/-!
# Specification: the saddle connections of a surface

A ray leaves a vertex of the surface. We develop the triangles that it crosses into the plane, such that the ray starts at
the origin.
-/

namespace Verif.Spec

open Vec

variable {T : Type} [CommRing T] [LinearOrder T]

/-- The triangle on the other side of the half edge `x`, which ends at `q`, has this vertex opposite to `x`. -/
def apex (S : FlatTri T) (x : HE) (q : Vec T) : Vec T := q - S.vec x + S.vec (S.tri.nextInFace (neg x))

/-- The ray in direction of `v` crosses the half edge `x` from its left to its right, where `x` has been put such that it
ends at `q`. Then the first vertex that it hits is at `v`; it comes to that vertex between the half edge `t` and the
half edge that follows counterclockwise. -/
inductive Hits (S : FlatTri T) (v : Vec T) : HE → Vec T → HE → Prop
  /-- The ray hits the vertex of the triangle on the other side of `x`. -/
  | here {x : HE} {q : Vec T} : v = apex S x q → Hits S v x q (S.tri.nextInFace (S.tri.nextInFace (neg x)))
  /-- The ray passes to the right of that vertex. -/
  | right {x : HE} {q : Vec T} {t : HE} : 0 < cross v (apex S x q) →
      Hits S v (S.tri.nextInFace (neg x)) (apex S x q) t → Hits S v x q t
  /-- The ray passes to the left of that vertex. -/
  | left {x : HE} {q : Vec T} {t : HE} : cross v (apex S x q) < 0 →
      Hits S v (S.tri.nextInFace (S.tri.nextInFace (neg x))) q t → Hits S v x q t

/-- There is a saddle connection which starts in the corner between the half edge `e`, inclusive, and the one that follows
counterclockwise at its vertex, exclusive, with vector `v`, and which comes to its end in the corner between `t`,
inclusive, and the one that follows counterclockwise, exclusive. -/
inductive IsSaddleConnection (S : FlatTri T) (e : HE) (v : Vec T) (t : HE) : Prop
  /-- The saddle connection is a half edge. -/
  | halfEdge : v = S.vec e → t = neg e → IsSaddleConnection S e v t
  /-- The saddle connection crosses the half edge opposite to its start. -/
  | crossing : 0 < cross (S.vec e) v → 0 < cross v (S.vec e + S.vec (S.tri.nextInFace e)) →
      Hits S v (S.tri.nextInFace e) (S.vec e + S.vec (S.tri.nextInFace e)) t → IsSaddleConnection S e v t

end Verif.Spec
