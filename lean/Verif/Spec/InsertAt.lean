import Verif.Model.FlatTriangulation
import Verif.Spec.FlatTriangulation

/-!
# Specification: inserting a vertex at the end of a vector

The vector `v` starts at the source of the half edge `n`.
-/

namespace Verif.Spec

variable {T : Type} [CommRing T] [LinearOrder T]
variable {K : Type} [Field K] [LinearOrder K] [IsStrictOrderedRing K]

/-- The vector ends in the interior of the face of `n`, i.e., to the left of its three sides. -/
structure EndsInFace (S : FlatTri T) (n : HE) (v : Vec T) : Prop where
  side1 : 0 < Vec.cross (S.vec n) v
  side2 : 0 < Vec.cross (S.vec (S.tri.nextInFace n)) (v - S.vec n)
  side3 : 0 < Vec.cross (S.vec (S.tri.nextInFace (S.tri.nextInFace n))) (v - (S.vec n + S.vec (S.tri.nextInFace n)))

/-- The vector ends in the interior of the half edge `n`: it points into the direction of `n`, and what remains of `n` also
points into that direction. -/
structure EndsOnEdge (S : FlatTri T) (n : HE) (v : Vec T) : Prop where
  collinear : Vec.cross (S.vec n) v = 0
  forward : 0 < Vec.dot (S.vec n) v
  remaining : 0 < Vec.dot (S.vec n) (S.vec n - v)

/-- Getting from the half edge `n` of `S` to the half edge `n'` of `S'` by flipping edges other than that of the current half
edge, and by turning counterclockwise to the next half edge at the vertex if the vector is strictly to the left of the
current half edge and not to the right of the next one. The list contains the half edges that are flipped. -/
inductive Approach (A : Option (Approx T K)) (dbg : Bool) (v : Vec T) : FlatTri T → HE → List HE → FlatTri T → HE → Prop
  | done (S : FlatTri T) (n : HE) : Approach A dbg v S n [] S n
  | flip {S S' S'' : FlatTri T} {n n' e : HE} {es : List HE} : S.flip A dbg e = (S', .ok ()) → e ≠ n → e ≠ neg n →
      Approach A dbg v S' n es S'' n' → Approach A dbg v S n (e :: es) S'' n'
  | turn {S S' : FlatTri T} {n n' : HE} {es : List HE} : 0 < Vec.cross (S.vec n) v →
      0 ≤ Vec.cross (S.vec (S.tri.nextAtVertex n)) v → Approach A dbg v S (S.tri.nextAtVertex n) es S' n' →
      Approach A dbg v S n es S' n'

/-- The face `(n f g)` of `S` with corners `A`, `B`, `C` has been replaced by three faces that meet in a new vertex `V` at `v`
from `A`. There are new half edges `a` from `V` to `A`, `b` from `V` to `B`, and `c` from `V` to `C`. Everything else is
unchanged. -/
structure SubdividesFace (S S' : FlatTri T) (n f g a b c : HE) (v : Vec T) : Prop where
  face : IsFace S.tri n f g
  halfEdges : S'.tri.halfEdges = S.tri.halfEdges ++ [a, neg a, b, neg b, c, neg c]
  face1 : IsFace S'.tri n (neg b) a
  face2 : IsFace S'.tri f (neg c) b
  face3 : IsFace S'.tri g (neg a) c
  others : ∀ x ∈ S.tri.halfEdges, x ∉ [n, f, g] → S'.tri.nextInFace x = S.tri.nextInFace x
  vectors : ∀ x ∈ S.tri.halfEdges, S'.vec x = S.vec x
  new : S'.vec (neg a) = v ∧ S'.vec b = S.vec n - v ∧ S'.vec c = S.vec n + S.vec f - v
  vertex : IsOrbit S'.tri a {a, b, c} ∧ {a, b, c} ∈ S'.tri.vertexes

/-- The faces `(n f g)` and `(-n k l)` of `S` with corners `A`, `B`, `C` and `B`, `A`, `D` have been replaced by four faces
that meet in a new vertex `V` at `v` from `A`. There are new half edges `a` from `V` to `A`, `c` from `V` to `B`, and `d` from
`V` to `C`. The half edge `-n` is now from `V` to `D`. Everything else is unchanged. -/
structure SubdividesEdge (S S' : FlatTri T) (n f g k l a c d : HE) (v : Vec T) : Prop where
  face : IsFace S.tri n f g
  face' : IsFace S.tri (neg n) k l
  halfEdges : S'.tri.halfEdges = S.tri.halfEdges ++ [a, neg a, c, neg c, d, neg d]
  face1 : IsFace S'.tri k n a
  face2 : IsFace S'.tri l (neg c) (neg n)
  face3 : IsFace S'.tri f (neg d) c
  face4 : IsFace S'.tri g (neg a) d
  others : ∀ x ∈ S.tri.halfEdges, x ∉ [n, f, g, neg n, k, l] → S'.tri.nextInFace x = S.tri.nextInFace x
  vectors : ∀ x ∈ S.tri.halfEdges, x ∉ [n, neg n] → S'.vec x = S.vec x
  new : S'.vec (neg a) = v ∧ S'.vec (neg n) = S.vec k - v ∧ S'.vec c = S.vec n - v ∧ S'.vec d = S.vec n + S.vec f - v
  vertex : IsOrbit S'.tri a {a, neg n, c, d} ∧ {a, neg n, c, d} ∈ S'.tri.vertexes

end Verif.Spec
