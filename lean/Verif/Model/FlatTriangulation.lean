import Verif.Model.Tracked
import Verif.Model.Slit
import Verif.Model.Vector
import Mathlib.Data.Finset.Max

/-!
# Flat triangulations (libflatsurf/src/flat_triangulation.cc)

A flat triangulation is a combinatorial triangulation with vectors attached to its half edges. As for vectors, `A` says
how coordinates are approximated in shortcuts, and `dbg` whether assertions are evaluated.
-/

namespace Verif

/-- `ImplementationOf<FlatTriangulation<T>>`, impl/flat_triangulation.impl.hpp. The approximations of the vectors are not
part of this model. -/
structure FlatTri (T : Type) where
  tri : Tri
  vec : HE → Vec T

/-- `flatsurf::DELAUNAY`, flatsurf/delaunay.hpp. -/
inductive Delaunay where
  | delaunay | ambiguous | nonDelaunay
deriving DecidableEq, Repr

namespace FlatTri

variable {T : Type} [CommRing T] [LinearOrder T] {K : Type*} [Field K] [LinearOrder K] [IsStrictOrderedRing K]
variable (A : Option (Approx T K)) (dbg : Bool)

/-- The first check for a half edge, flat_triangulation.cc:1200-1207. -/
def closedAt (S : FlatTri T) (e : HE) : Bool :=
  S.tri.boundary e ||
    ((S.vec e).nonzero &&
      !(S.vec e + S.vec (S.tri.nextInFace e) + S.vec (S.tri.nextInFace (S.tri.nextInFace e))).nonzero)

/-- The second check for a half edge, flat_triangulation.cc:1211-1214. -/
def orientedAt (S : FlatTri T) (e : HE) : Bool :=
  S.tri.boundary e ||
    (decide (Vec.ccw A (S.vec e) (S.vec (S.tri.nextInFace e)) ≠ .collinear) &&
      decide (Vec.ccw A (S.vec e) (S.vec (S.tri.nextInFace e)) = .counterclockwise))

/-- `check`, flat_triangulation.cc:1195-1216. -/
def check (S : FlatTri T) : Except Err Unit :=
  if !S.tri.halfEdges.all S.closedAt then .error .invalidArgument
  else if !S.tri.halfEdges.all (S.orientedAt A) then .error .invalidArgument
  else .ok ()

/-- The constructor from a function, flat_triangulation.cc:471-475 and 1100-1146. -/
def ofFunction (C : Tri) (vectors : HE → Vec T) : Except Err (FlatTri T) := do
  let tri ← Tri.make dbg C.vertices (C.halfEdges.filter C.boundary)
  check A ⟨tri, vectors⟩
  return ⟨tri, vectors⟩

/-- The constructor from a vector for each edge, flat_triangulation.cc:459-469. When there are too few vectors,
`vectors.at` throws a `std::out_of_range`, which is a `std::logic_error`. -/
def ofVectors (C : Tri) (vectors : List (Vec T)) : Except Err (FlatTri T) := do
  let tri ← Tri.make dbg C.vertices (C.halfEdges.filter C.boundary)
  if vectors.length < tri.edges.length then throw .logicError
  let S : FlatTri T := ⟨tri, fun he => if he % 2 = 0 then vectors.getD (he / 2) 0 else -vectors.getD (he / 2) 0⟩
  check A S
  if vectors.length ≠ tri.edges.length then throw .invalidArgument
  return S

/-- `convex`, flat_triangulation.cc:756-764. -/
def convex (S : FlatTri T) (e : HE) (strict : Bool) : Bool :=
  let at1 := Vec.ccw A (S.vec (S.tri.previousAtVertex e)) (S.vec (S.tri.nextAtVertex e))
  let at2 := Vec.ccw A (S.vec (S.tri.previousAtVertex (neg e))) (S.vec (S.tri.nextAtVertex (neg e)))
  if strict then decide (at1 = .counterclockwise) && decide (at2 = .counterclockwise)
  else decide (at1 ≠ .clockwise) && decide (at2 ≠ .clockwise)

/-- `flip`, flat_triangulation.cc:1185-1192, with `updateAfterFlip`, flat_triangulation.cc:1148-1151, which is called once
the combinatorial flip is complete. -/
def flip (S : FlatTri T) (e : HE) : FlatTri T × Except Err Unit :=
  if S.tri.size ≤ e then (S, .error .undefined)
  else if !S.convex A e true then (S, .error .invalidArgument)
  else match S.tri.flip dbg e with
    | (tri, .error err) => ({ S with tri := tri }, .error err)
    | (tri, .ok ()) =>
      (⟨tri, Tracked.oddSet (fun v => -v) S.vec e
        (S.vec (neg (tri.nextInFace e)) + S.vec (neg (tri.previousInFace e)))⟩, .ok ())

/-- A sequence of flips, each of which has to succeed. -/
def flips (S : FlatTri T) : List HE → Option (FlatTri T)
  | [] => some S
  | e :: es => match S.flip A dbg e with
    | (S', .ok ()) => flips S' es
    | (_, .error _) => none

/-- `area2`, flat_triangulation.cc:711-724. -/
def area2 (S : FlatTri T) : T :=
  S.tri.halfEdges.foldl (fun area e =>
    if S.tri.boundary e then area
    else if e > S.tri.nextInFace e then area
    else if e > S.tri.previousInFace e then area
    else area + Vec.area2 [S.vec e, S.vec (S.tri.nextInFace e), S.vec (S.tri.nextInFace (S.tri.nextInFace e))]) 0

/-- The determinant in flat_triangulation.cc:692-694. -/
def det3 (x00 x01 x02 x10 x11 x12 x20 x21 x22 : T) : T :=
  x00 * (x11 * x22 - x12 * x21) - x10 * (x01 * x22 - x21 * x02) + x20 * (x01 * x12 - x11 * x02)

/-- `delaunay(Edge)`, flat_triangulation.cc:673-704, where `e` is the positive half edge. -/
def delaunayAt (S : FlatTri T) (e : HE) : Delaunay :=
  let ca := S.vec e
  let cb := S.vec (S.tri.nextAtVertex e)
  let dc := S.vec (neg (S.tri.nextInFace (neg e)))
  let a := dc + ca
  let b := dc + cb
  let c := dc
  let del := det3 a.x a.y (a.x * a.x + a.y * a.y) b.x b.y (b.x * b.x + b.y * b.y) c.x c.y (c.x * c.x + c.y * c.y)
  if del < 0 then .delaunay
  else if del = 0 then .ambiguous
  else .nonDelaunay

/-- The loop over all edges in `delaunay()`, flat_triangulation.cc:654-659: the half edges flipped are recorded. -/
def delaunayPass : List HE → FlatTri T → Except Err (FlatTri T × List HE)
  | [], S => .ok (S, [])
  | e :: es, S =>
    if S.delaunayAt e = .nonDelaunay then
      match S.flip A dbg e with
      | (_, .error err) => .error err
      | (S', .ok ()) => (delaunayPass es S').map fun r => (r.1, e :: r.2)
    else delaunayPass es S

/-- `delaunay()`, flat_triangulation.cc:649-661. The result is `none` when the loop has not ended with the given fuel. -/
def delaunay : ℕ → FlatTri T → Option (Except Err (FlatTri T))
  | 0, _ => none
  | fuel + 1, S => match delaunayPass A dbg S.tri.edges S with
    | .error err => some (.error err)
    | .ok (S', flipped) => if flipped = [] then some (.ok S') else delaunay fuel S'

/-- `scale`, flat_triangulation.cc:726-731. -/
def scale (S : FlatTri T) (scalar : ℤ) : Except Err (FlatTri T) := do
  let C ← S.tri.clone dbg
  ofFunction A dbg C fun e => (scalar : T) • S.vec e

/-- The codomain of `applyMatrix`, flat_triangulation.cc:733-754. -/
def applyMatrix (S : FlatTri T) (a b c d : T) : Except Err (FlatTri T) := do
  if a * d - b * c = 0 then throw .invalidArgument
  if S.tri.hasBoundary then throw .logicError
  let C ← if a * d - b * c < 0 then
      (do let v ← S.tri.vertices.inverse; Tri.ofVertices dbg v)
    else S.tri.clone dbg
  ofFunction A dbg C fun e => (S.vec e).applyMatrix a b c d

/-- The codomain of `relabel`, flat_triangulation.cc:663-671. -/
def relabel (S : FlatTri T) (r : Perm) : Except Err (FlatTri T) := do
  let C ← S.tri.relabel dbg r
  ofFunction A dbg C fun e => S.vec (r.inv e)

/-- The loop in `angle`, flat_triangulation.cc:928-935. -/
def angleLoop (S : FlatTri T) (first : HE) : ℕ → HE → ℕ → Option ℕ
  | 0, _, _ => none
  | fuel + 1, current, angle =>
    let next := S.tri.nextAtVertex current
    let angle := if (S.vec current).x ≥ 0 ∧ (S.vec next).x < 0 then angle + 1 else angle
    if next ≠ first then angleLoop S first fuel next angle else some angle

/-- `angle`, flat_triangulation.cc:923-940. The half edges at the vertex are given, the loop starts at the smallest. (The
assertion is dropped.) -/
def angle (S : FlatTri T) (fuel : ℕ) (vertex : Finset HE) : Option ℕ :=
  if h : vertex.Nonempty then S.angleLoop (vertex.min' h) fuel (vertex.min' h) 0 else none

/-- `inSector`, flat_triangulation.cc:766-769. -/
def inSector (S : FlatTri T) (sector : HE) (vector : Vec T) : Bool :=
  decide (Vec.ccw A (S.vec sector) vector ≠ .clockwise) &&
    decide (Vec.ccw A (S.vec (S.tri.nextAtVertex sector)) vector = .clockwise)

/-- `inHalfPlane`, flat_triangulation.cc:771-774. -/
def inHalfPlane (S : FlatTri T) (side : HE) (vector : Vec T) : Bool :=
  decide (Vec.orientation A (S.vec side) vector = .same)

/-- `inPlane`, flat_triangulation.cc:776-779. -/
def inPlane (S : FlatTri T) (plane : HE) (direction : Vec T) : Bool :=
  decide (Vec.ccw A direction (S.vec plane) ≠ .collinear) ||
    decide (Vec.orientation A direction (S.vec plane) ≠ .opposite)

/-- A loop `while (condition(e)) e = next(e)`. -/
def walk (next : HE → HE) (condition : HE → Bool) : ℕ → HE → Option HE
  | 0, _ => none
  | fuel + 1, e => if condition e then walk next condition fuel (next e) else some e

/-- The direction is clockwise from the half edge. -/
def clockwise (S : FlatTri T) (direction : Vec T) (e : HE) : Bool :=
  decide (Vec.ccw A (S.vec e) direction = .clockwise)

/-- `sector(plane, direction)`, flat_triangulation.cc:781-795. -/
def sectorInPlane (S : FlatTri T) (fuel : ℕ) (plane : HE) (direction : Vec T) : Option (Except Err HE) :=
  if !S.inPlane A plane direction then some (.error .invalidArgument)
  else match Vec.ccw A (S.vec plane) direction with
    | .clockwise => (walk S.tri.previousAtVertex (S.clockwise A direction) fuel plane).map .ok
    | .counterclockwise =>
      (walk S.tri.nextAtVertex (fun e => !S.clockwise A direction e) fuel plane).map
        fun e => .ok (S.tri.previousAtVertex e)
    | .collinear => some (.ok plane)

/-- `sector(start, ccw, direction, exclude)`, flat_triangulation.cc:797-829. -/
def sector (S : FlatTri T) (fuel : ℕ) (start : HE) (ccw : CCW) (direction : Vec T) (exclude : Bool) :
    Option (Except Err HE) :=
  let same := Vec.ccw A (S.vec start) direction = .collinear ∧ Vec.orientation A (S.vec start) direction = .same
  if ccw = .collinear then some (.error .invalidArgument)
  else if same ∧ exclude = false then some (.ok start)
  else
    let start := if same then
        (if ccw = .clockwise then S.tri.previousAtVertex start else S.tri.nextAtVertex start)
      else start
    if ccw = .counterclockwise then
      (walk S.tri.nextAtVertex (S.clockwise A direction) fuel start).bind fun start =>
        (walk S.tri.nextAtVertex (fun e => !S.clockwise A direction e) fuel start).map fun start =>
          .ok (S.tri.previousAtVertex start)
    else
      (walk S.tri.previousAtVertex (fun e => !S.clockwise A direction e) fuel (S.tri.nextAtVertex start)).bind
        fun start => (walk S.tri.previousAtVertex (S.clockwise A direction) fuel start).map .ok

/-- `sector(sector, start, ccw, direction, exclude)`, flat_triangulation.cc:831-853. -/
def sectorFrom (S : FlatTri T) (fuel : ℕ) (sector : HE) (start : Vec T) (ccw : CCW) (direction : Vec T)
    (exclude : Bool) : Option (Except Err HE) :=
  if ccw = .collinear then some (.error .invalidArgument)
  else if !S.inSector A sector start then some (.error .invalidArgument)
  else if S.inSector A sector direction ∧ Vec.ccw A start direction = .collinear ∧ exclude = false then
    some (.ok sector)
  else if S.inSector A sector direction ∧ Vec.ccw A start direction = ccw then some (.ok sector)
  else
    let sector := if ccw = .counterclockwise then S.tri.nextAtVertex sector else sector
    S.sector A fuel sector ccw direction (decide (ccw = .clockwise))

/-- `sector(plane, vertical, direction)`, flat_triangulation.cc:855-870; the vertical is only used as the vector it is
implicitly converted to. -/
def sectorInHalfPlane (S : FlatTri T) (fuel : ℕ) (plane : HE) (vertical direction : Vec T) : Option (Except Err HE) :=
  if !S.inHalfPlane A plane vertical then some (.error .invalidArgument)
  else if Vec.orientation A direction vertical ≠ .same then some (.error .invalidArgument)
  else
    (walk S.tri.previousAtVertex (fun e => S.inHalfPlane A e vertical) fuel plane).bind fun plane =>
      (walk S.tri.nextAtVertex (fun e => !S.inSector A e direction) fuel plane).map .ok

end FlatTri

end Verif
