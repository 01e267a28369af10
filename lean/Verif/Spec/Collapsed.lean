import Verif.Model.Collapsed
import Verif.Spec.FlatTriangulation
import Verif.Spec.Vertical

/-!
# What collapsed surfaces are
-/

namespace Verif.Spec

variable {T : Type} [CommRing T] [LinearOrder T] [IsStrictOrderedRing T]
variable {K : Type*} [Field K] [LinearOrder K] [IsStrictOrderedRing K]

/-- The collapsed surfaces that a user can get: the constructor followed by any number of flips, some of which may have thrown. -/
inductive BuiltCollapsed (A : Option (Approx T K)) (dbg : Bool) (S : FlatTri T) (v : Vec T) : Collapsed T → Prop
  | make {fuel : ℕ} {C : Collapsed T} : Collapsed.make A dbg fuel S v = some (.ok C) → BuiltCollapsed A dbg S v C
  | flip {C : Collapsed T} {e : HE} : BuiltCollapsed A dbg S v C → e ∈ C.tri.halfEdges → BuiltCollapsed A dbg S v (C.flip A dbg e).1

/-- The vectors of the vertical half edges of a surface. -/
def verticalHalfEdges (S : FlatTri T) (v : Vec T) : Multiset (Vec T) :=
  ((S.tri.halfEdges.filter fun e => Vec.cross (S.vec e) v = 0).map S.vec : List (Vec T))

/-- All the connections that have been collapsed, `cross` of all half edges. -/
def collapsedConnections (C : Collapsed T) : Multiset (Vec T) := (C.tri.halfEdges.flatMap C.cross : List (Vec T))

/-- The face of a half edge is a triangle that is oriented counterclockwise. -/
structure TriangleAt (C : Collapsed T) (e : HE) : Prop where
  three : C.tri.nextInFace (C.tri.nextInFace (C.tri.nextInFace e)) = e
  distinct : e ≠ C.tri.nextInFace e ∧ C.tri.nextInFace e ≠ C.tri.nextInFace (C.tri.nextInFace e)
  closed : C.fromHalfEdge e + C.fromHalfEdge (C.tri.nextInFace e) + C.fromHalfEdge (C.tri.nextInFace (C.tri.nextInFace e)) = 0
  oriented : 0 < Vec.cross (C.fromHalfEdge e) (C.fromHalfEdge (C.tri.nextInFace e))

/-- The face of a half edge has been collapsed: it only consists of the half edge and its negative. -/
structure CollapsedAt (C : Collapsed T) (e : HE) : Prop where
  two : C.tri.nextInFace e = neg e ∧ C.tri.nextInFace (neg e) = e
  closed : C.fromHalfEdge e + C.fromHalfEdge (neg e) = 0

end Verif.Spec
