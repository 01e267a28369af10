import Verif.Model.FlatTriangulation

/-!
# Intersections of saddle connections and half edges (libflatsurf/src/half_edge_intersection.cc)
-/

namespace Verif

variable {T : Type} [CommRing T] [LinearOrder T]

/-- `HalfEdgeIntersection`, impl/half_edge_intersection.impl.hpp:31-54. The line `base + λ·direction` is relative to the
start of the half edge. -/
structure HalfEdgeIntersection (T : Type) where
  surface : FlatTri T
  base : Vec T
  direction : Vec T
  halfEdge : HE

namespace HalfEdgeIntersection

/-- `make`, half_edge_intersection.cc:92-98, called with the position of the start of the half edge relative to the
source of the saddle connection, saddle_connection.cc:278. -/
def make (S : FlatTri T) (base : Vec T) (cross : HE) (direction : Vec T) : HalfEdgeIntersection T :=
  ⟨S, base, direction, cross⟩

/-- The vector of the half edge. -/
def along (i : HalfEdgeIntersection T) : Vec T := i.surface.vec i.halfEdge

/-- `projective`, half_edge_intersection.cc:62-72. -/
def projective (i : HalfEdgeIntersection T) : T × T × T :=
  let l0 := -i.direction.y
  let l1 := i.direction.x
  let l2 := i.direction.y * i.base.x - i.direction.x * i.base.y
  let k0 := -i.along.y
  let k1 := i.along.x
  let k2 : T := 0
  (k2 * l1 - l2 * k1, l2 * k0 - k2 * l0, k1 * l0 - k0 * l1)

/-- `relative`, half_edge_intersection.cc:74-88. -/
def relative (dbg : Bool) (i : HalfEdgeIntersection T) : Except Err (T × T) :=
  let p := i.projective
  if dbg ∧ p.2.2 = 0 then .error .logicError
  else if dbg ∧ ¬(p.1 ≠ 0 ∨ p.2.1 ≠ 0) then .error .logicError
  else if dbg ∧ ¬(p.1 = 0 ↔ i.along.x = 0) then .error .logicError
  else if dbg ∧ ¬(p.2.1 = 0 ↔ i.along.y = 0) then .error .logicError
  else if p.1 ≠ 0 then .ok (p.1, p.2.2 * i.along.x)
  else .ok (p.2.1, p.2.2 * i.along.y)

/-- `operator<`, half_edge_intersection.cc:37-43. -/
def lt (dbg : Bool) (i j : HalfEdgeIntersection T) : Except Err Bool := do
  let r ← i.relative dbg
  let s ← j.relative dbg
  return decide (r.1 * s.2 < s.1 * r.2)

end HalfEdgeIntersection

end Verif
