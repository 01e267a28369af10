import Verif.Spec.FlatTriangulation
import Verif.Model.FlowTriangulation

/-!
# Specification: triangulations of polygons

A polygon is given by two paths from its leftmost to its rightmost vertex; here, a direction `v` is considered to be vertical, so `0 <
cross w v` means that `w` goes to the right.
-/

namespace Verif.Spec

open Verif Vec

variable {T : Type} [CommRing T] [LinearOrder T]

/-- The points on a path after its starting point `p`. -/
def walk (p : Vec T) : List (Vec T) → List (Vec T)
  | [] => []
  | w :: l => (p + w) :: walk (p + w) l

/-- The starting points and end points of the steps of a path. -/
def sides (p : Vec T) : List (Vec T) → List (Vec T × Vec T)
  | [] => []
  | w :: l => (p, p + w) :: sides (p + w) l

/-- The vertices of a polygon. The paths at the bottom and the top end in the same point. -/
def corners (bottom top : List (Vec T)) : List (Vec T) := 0 :: walk 0 bottom ++ (walk 0 top).dropLast

/-- The paths bound a polygon. -/
structure MonotonePolygon (v : Vec T) (bottom top : List (Vec T)) : Prop where
  direction : v ≠ 0
  /-- The polygon is at least a triangle. -/
  three : 3 ≤ bottom.length + top.length
  /-- The paths end in the same point. -/
  closed : bottom.sum = top.sum
  /-- The paths do not go to the left. -/
  right : ∀ w ∈ bottom ++ top, 0 ≤ cross w v
  /-- If there are vertical sides on the left, these are part of the top. -/
  left : ∀ w ∈ bottom.head?, 0 < cross w v
  /-- If there are vertical sides on the right, these are part of the bottom. -/
  last : ∀ w ∈ top.getLast?, 0 < cross w v
  /-- No two vertices are the same point. -/
  distinct : (corners bottom top).Nodup
  /-- The vertices on a vertical line are all ordered in the same direction. -/
  line : ∀ p q r, [p, q, r].Sublist (corners bottom top) → cross (q - p) v = 0 → cross (r - q) v = 0 → 0 < dot (q - p) (r - q)
  /-- The vertices at the bottom are below the sides at the top. -/
  below : ∀ s ∈ sides 0 top, 0 < cross (s.2 - s.1) v → ∀ q ∈ (walk 0 bottom).dropLast,
    0 ≤ cross (q - s.1) v → 0 ≤ cross (s.2 - q) v → cross (s.2 - s.1) (q - s.1) < 0
  /-- The vertices at the top are above the sides at the bottom. -/
  above : ∀ s ∈ sides 0 bottom, 0 < cross (s.2 - s.1) v → ∀ q ∈ (walk 0 top).dropLast,
    0 ≤ cross (q - s.1) v → 0 ≤ cross (s.2 - q) v → 0 < cross (s.2 - s.1) (q - s.1)

/-- The perimeter of a flow component: its connections at the bottom and then vertical connections on its right, and its connections at
the top and then vertical connections on its left. -/
structure Perimeter (vec : HE → Vec T) (v : Vec T) (bottom top : List FlowTriangulation.Connection) : Prop where
  /-- The vector of the negative of a connection is the negative of the vector. -/
  odd : ∀ c, vec (neg c) = -vec c
  /-- No connection shows up twice. -/
  nodup : ((bottom ++ top).map FlowTriangulation.Connection.key).Nodup
  kindBottom : ∀ c ∈ bottom, c.kind ≠ .top
  kindTop : ∀ c ∈ top.head?, c.kind = .top
  polygon : MonotonePolygon v (bottom.map fun c => vec c.key) (top.reverse.map fun c => -vec c.key)

/-- The flat triangulation is a triangulation of the polygon with the given sides. Sides that differ only by a sign are glued. -/
structure Triangulates (vec : HE → Vec T) (sides : List HE) (R : FlowTriangulation.Result T) : Prop where
  flat : IsFlat R.triangulation
  /-- A polygon with `n` sides is made of `n - 2` triangles. -/
  faces : (R.triangulation.tri.halfEdges.filter fun e => !R.triangulation.tri.boundary e).length = 3 * (sides.length - 2)
  area : R.triangulation.area2 = Vec.area2 (sides.map vec)
  /-- The sides are in the triangulation. -/
  side : ∀ c ∈ sides, ∃ e ∈ R.triangulation.tri.halfEdges, R.toHalfEdge c = some e ∧ R.triangulation.tri.boundary e = false ∧
    R.triangulation.vec e = vec c
  injective : ∀ c ∈ sides, ∀ d ∈ sides, R.toHalfEdge c = R.toHalfEdge d → c = d
  glued : ∀ c ∈ sides, neg c ∈ sides → ∀ e, R.toHalfEdge c = some e → R.toHalfEdge (neg c) = some (neg e)
  /-- The boundary of the triangulation. -/
  boundary : ∀ e ∈ R.triangulation.tri.halfEdges, R.triangulation.tri.boundary e = true ↔
    ∃ c ∈ sides, neg c ∉ sides ∧ R.toHalfEdge c = some (neg e)
  /-- The sides can be told from the half edges. -/
  inverse : ∀ c e, R.toConnection e = some c ↔ c ∈ sides ∧ R.toHalfEdge c = some e

end Verif.Spec
