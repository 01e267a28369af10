import Verif.Model.Contour
import Verif.Spec.Vertical

/-!
# Specification of contours

The flow goes into the direction `v`, i.e., we think of `v` as pointing up.
-/

namespace Verif.Spec

variable {T : Type} [CommRing T] [LinearOrder T]

/-- There are no vertical half edges. -/
def NoVertical (S : FlatTri T) (v : Vec T) : Prop := ∀ e ∈ S.tri.halfEdges, Vec.cross (S.vec e) v ≠ 0

/-- The half edges go from left to right. -/
def LeftToRight (S : FlatTri T) (v : Vec T) (l : List HE) : Prop := ∀ e ∈ l, 0 < Vec.cross (S.vec e) v

/-- The half edges go from right to left. -/
def RightToLeft (S : FlatTri T) (v : Vec T) (l : List HE) : Prop := ∀ e ∈ l, Vec.cross (S.vec e) v < 0

/-- Each half edge starts at the vertex at which the previous one ends, and they go from the vertex at the start of `e` to the
vertex at the end of `e`, also when developed in the plane. -/
structure RunsAlong (S : FlatTri T) (e : HE) (l : List HE) : Prop where
  start : ∃ a, l.head? = some a ∧ S.tri.source a = S.tri.source e
  stop : ∃ b, l.getLast? = some b ∧ S.tri.source (neg b) = S.tri.source (neg e)
  joins : l.IsChain fun a b => S.tri.source (neg a) = S.tri.source b
  sum : (l.map S.vec).sum = S.vec e

/-- The half edges that can be joined without crossing vertical edges contain at most one large edge. -/
def UniqueLargeEdges (S : FlatTri T) (v : Vec T) : Prop :=
  ∀ x ∈ S.tri.halfEdges, ∀ y ∈ S.tri.halfEdges, Joined S v x y → IsLarge S v x → IsLarge S v y → y = x ∨ y = neg x

/-- In a cyclic list, `b` follows `a`. -/
def Follows (l : List HE) (a b : HE) : Prop := ∃ i < l.length, l[i]? = some a ∧ l[(i + 1) % l.length]? = some b

end Verif.Spec
