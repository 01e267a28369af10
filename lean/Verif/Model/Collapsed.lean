import Verif.Model.Collapse
import Verif.Model.Vertical

/-!
# Surfaces without vertical edges

Model of libflatsurf/src/flat_triangulation_collapsed.cc. Saddle connections are given by their vectors; the half edges from which they
start and at which they end are not part of this model. In particular, the assertions that paths are connected (path.cc:296, 338), that
saddle connections exist in the original surface (lines 439-443 and 477-484) and that no vertex disappears (lines 445-459 and 486-502)
are not modelled.

The function `vertical()` creates a new object with empty caches each time it is called.
-/

namespace Verif

/-- The state of a `FlatTriangulationCollapsed`, impl/flat_triangulation_collapsed.impl.hpp. -/
structure Collapsed (T : Type) where
  original : FlatTri T
  vertical : Vec T
  tri : Tri
  vec : HE → Vec T
  conn : HE → List (Vec T)

namespace Collapsed

variable {T : Type} [CommRing T] [LinearOrder T]
variable {K : Type*} [Field K] [LinearOrder K] [IsStrictOrderedRing K]

/-- What is tracked for each half edge: `vectors` and `collapsedHalfEdges`. -/
structure Data (T : Type) where
  vec : HE → Vec T
  conn : HE → List (Vec T)

/-- `push_front`, path.cc:295-298. -/
def Data.pushFront (m : Data T) (e : HE) (k : Vec T) : Data T := { m with conn := Function.update m.conn e (k :: m.conn e) }

/-- `connections(target).splice(connections(target).end(), connections(source))`, path.cc:330-344; the half edges are always different. -/
def Data.append (m : Data T) (target source : HE) : Data T :=
  { m with conn := Function.update (Function.update m.conn target (m.conn target ++ m.conn source)) source [] }

/-- `connections(target).splice(connections(target).begin(), connections(source))`, path.cc:330-344. -/
def Data.prepend (m : Data T) (target source : HE) : Data T :=
  { m with conn := Function.update (Function.update m.conn target (m.conn source ++ m.conn target)) source [] }

/-- The lambda `set`, flat_triangulation_collapsed.cc:315-318. -/
def Data.set (m : Data T) (target source : HE) : Data T :=
  ⟨Function.update m.vec target (m.vec source), Function.update m.conn target (m.conn source)⟩

/-- `vectors[target] = -vectors[source]`. -/
def Data.setNeg (m : Data T) (target source : HE) : Data T := { m with vec := Function.update m.vec target (-m.vec source) }

/-- The different identifications of the sides of the faces `(a -collapse d)` and `(c collapse b)`,
flat_triangulation_collapsed.cc:333-404. -/
def squeeze (dbg : Bool) (m : Data T) (a b c d : HE) : Except Err (Data T) :=
  if a = neg c ∧ b = neg d then
    .ok ((((m.setNeg (neg a) a).append a b).prepend (neg a) (neg b)).set b a |>.set (neg b) (neg a))
  else if a = neg c then
    let m := (((m.append (neg b) c).append (neg b) d).append (neg d) a).append (neg d) b
    .ok ((((m.set a (neg d)).set b (neg d)).set c (neg b)).set d (neg b))
  else if b = neg d then
    let m := (((m.append (neg a) d).append (neg a) c).append (neg c) b).append (neg c) a
    .ok ((((m.set a (neg c)).set b (neg c)).set c (neg a)).set d (neg a))
  else if a = neg d ∨ b = neg c then
    let m := if a = neg d then m.setNeg d (neg d) else (((m.append (neg a) d).append (neg d) a).set a (neg d)).set d (neg a)
    let m := if b = neg c then m.setNeg b (neg b) else (((m.append (neg b) c).append (neg c) b).set b (neg c)).set c (neg b)
    .ok m
  else if dbg ∧ ¬ [a, b, c, d, neg a, neg b, neg c, neg d].Nodup then .error .logicError
  else
    let m := (((m.append (neg a) d).append (neg b) c).append (neg c) b).append (neg d) a
    .ok ((((m.set d (neg a)).set b (neg c)).set a (neg d)).set c (neg b))

/-- `updateBeforeCollapse`, flat_triangulation_collapsed.cc:289-410. The last assertions abort the program; this is `undefined` here. -/
def beforeCollapse (A : Option (Approx T K)) (dbg : Bool) (v : Vec T) (S : Tri) (e : HE) (m : Data T) : Except Err (Data T) := do
  let _ ← Vertical.make v
  let col := 2 * (e / 2)
  if dbg ∧ Vec.ccw A v (m.vec col) ≠ .collinear then throw .logicError
  let col := if Vec.orientation A v (m.vec col) = .opposite then neg col else col
  let a := S.previousInFace (neg col)
  let b := S.nextInFace col
  let c := S.previousInFace col
  let d := S.nextInFace (neg col)
  let connection := m.vec col
  if dbg ∧ -connection ≠ m.vec (neg col) then throw .logicError
  let m ← squeeze dbg ((m.pushFront b connection).pushFront d (-connection)) a b c d
  if dbg ∧ (m.conn (neg a) = [] ∨ m.conn b = [] ∨ m.conn (neg c) = [] ∨ m.conn d = []) then throw .undefined
  return m

/-- `updateAfterFlip`, flat_triangulation_collapsed.cc:235-287, where `S` is the surface after the flip. -/
def afterFlip (dbg : Bool) (S : Tri) (e : HE) (m : Data T) : Except Err (Data T) :=
  let a := S.previousInFace (neg e)
  let b := S.nextInFace e
  let c := S.previousInFace e
  let d := S.nextInFace (neg e)
  let vec := (m.conn e).foldl (fun (vec : HE → Vec T) k => Function.update vec b (vec b + k)) m.vec
  let vec := (m.conn (neg e)).foldl (fun (vec : HE → Vec T) k => Function.update vec d (vec d + k)) vec
  let m := (Data.append ⟨vec, m.conn⟩ (neg b) e).append (neg d) (neg e)
  let vec := Function.update m.vec e (m.vec d + m.vec a)
  let vec := Function.update vec (neg e) (-vec e)
  if dbg ∧ vec (neg e) ≠ vec b + vec c then .error .logicError
  else .ok ⟨vec, m.conn⟩

/-- `faceClosed`, flat_triangulation_collapsed.cc:223-233. -/
def faceClosed (C : Collapsed T) (e : HE) : Bool :=
  if C.tri.boundary e then true
  else if C.tri.nextInFace e = neg e then true
  else decide (Vertical.projectPerpendicular C.vertical (C.vec e) + Vertical.projectPerpendicular C.vertical (C.vec (C.tri.nextInFace e)) +
    Vertical.projectPerpendicular C.vertical (C.vec (C.tri.previousInFace e)) = 0)

/-- `collapse`, flat_triangulation_collapsed.cc:463-506. The handlers are called by the combinatorial surface, first to update the vectors
and connections (flat_triangulation_combinatorial.cc:269-271), then whenever edges are renamed. When the combinatorial surface and a
handler throw, only the exception of the combinatorial surface is modelled; the state after an exception is not modelled. -/
def collapse (A : Option (Approx T K)) (dbg : Bool) (C : Collapsed T) (e : HE) : Except Err (Collapsed T × HE × HE) := do
  let r ← C.tri.collapse dbg e
  let m ← beforeCollapse A dbg C.vertical C.tri e ⟨C.vec, C.conn⟩
  let vec ← C.tri.renameAll e m.vec
  let conn ← C.tri.renameAll e m.conn
  let C : Collapsed T := ⟨C.original, C.vertical, r.1, vec, conn⟩
  if dbg ∧ ¬ C.tri.halfEdges.all C.faceClosed then throw .logicError
  return (C, r.2)

/-- `flip`, flat_triangulation_collapsed.cc:412-461: the state afterwards and the exception, if any. After exceptions in the handlers or
in `collapse`, the state is not modelled exactly. -/
def flip (A : Option (Approx T K)) (dbg : Bool) (C : Collapsed T) (e : HE) : Collapsed T × Except Err Unit :=
  match Vertical.make C.vertical with
  | .error err => (C, .error err)
  | .ok V =>
    if (Vertical.largeAt ⟨C.tri, C.vec⟩ e V).1 = false then (C, .error .invalidArgument)
    else if ¬ (C.tri.nextInFace (C.tri.nextInFace (C.tri.nextInFace e)) = e ∧
        C.tri.nextInFace (C.tri.nextInFace (C.tri.nextInFace (neg e))) = neg e) then (C, .error .invalidArgument)
    else
      let e := if Vec.ccw A C.vertical (C.vec e) = .counterclockwise then neg e else e
      match C.tri.flip dbg e with
      | (S, .error err) => ({ C with tri := S }, .error err)
      | (S, .ok ()) =>
        match afterFlip dbg S e ⟨C.vec, C.conn⟩ with
        | .error err => ({ C with tri := S }, .error err)
        | .ok m =>
          let C : Collapsed T := ⟨C.original, C.vertical, S, m.vec, m.conn⟩
          if dbg ∧ C.faceClosed e = false then (C, .error .logicError)
          else if Vec.ccw A C.vertical (C.vec e) = .collinear then
            match C.collapse A dbg e with
            | .error err => (C, .error err)
            | .ok (C, _) => (C, .ok ())
          else (C, .ok ())

/-- The first vertical half edge, flat_triangulation_collapsed.cc:78-80. -/
def firstVertical (A : Option (Approx T K)) (C : Collapsed T) : Option HE :=
  C.tri.halfEdges.find? fun e => Vec.ccw A C.vertical (C.vec e) = .collinear

/-- The loop in the constructor, flat_triangulation_collapsed.cc:77-87; `none` if it has not ended after `fuel` rounds. -/
def collapseAll (A : Option (Approx T K)) (dbg : Bool) : ℕ → Collapsed T → Option (Except Err (Collapsed T))
  | 0, _ => none
  | fuel + 1, C =>
    match C.firstVertical A with
    | none => some (.ok C)
    | some e =>
      match C.collapse A dbg e with
      | .error err => some (.error err)
      | .ok (C, _) => collapseAll A dbg fuel C

/-- The constructor of the implementation, flat_triangulation_collapsed.cc:149-198. -/
def init (dbg : Bool) (S : FlatTri T) (v : Vec T) : Except Err (Collapsed T) := do
  let tri ← S.tri.clone dbg
  return ⟨S, v, tri, S.vec, fun _ => []⟩

/-- The constructor, flat_triangulation_collapsed.cc:74-87. The direction is only checked when there is a half edge. -/
def make (A : Option (Approx T K)) (dbg : Bool) (fuel : ℕ) (S : FlatTri T) (v : Vec T) : Option (Except Err (Collapsed T)) :=
  match init dbg S v with
  | .error err => some (.error err)
  | .ok C =>
    if C.tri.size = 0 then some (.ok C)
    else match Vertical.make v with
      | .error err => some (.error err)
      | .ok _ => collapseAll A dbg fuel C

/-- `cross`, flat_triangulation_collapsed.cc:116-120. -/
def cross (C : Collapsed T) (e : HE) : List (Vec T) := C.conn e

/-- `fromHalfEdge`, flat_triangulation_collapsed.cc:111-114. -/
def fromHalfEdge (C : Collapsed T) (e : HE) : Vec T := C.vec e

/-- `area2` of a polygon with its assertions, vector.cc:579-598. -/
def polygonArea2 (dbg : Bool) (perimeter : List (Vec T)) : Except Err T :=
  if dbg ∧ perimeter.sum ≠ 0 then .error .logicError
  else if dbg ∧ Vec.area2 perimeter < 0 then .error .logicError
  else .ok (Vec.area2 perimeter)

/-- The body of the loop in `area2`, flat_triangulation_collapsed.cc:204-218. -/
def areaStep (dbg : Bool) (C : Collapsed T) (area : T) (e : HE) : Except Err T := do
  if C.tri.boundary e then throw .logicError
  let area ← (C.cross e).foldlM (fun area k => do return area + (← polygonArea2 dbg [k, C.vec e - k, -C.vec e])) area
  if C.tri.nextInFace e = C.tri.previousInFace e then return area
  if e > C.tri.nextInFace e then return area
  if e > C.tri.previousInFace e then return area
  return area + (← polygonArea2 dbg [C.vec e, C.vec (C.tri.nextInFace e), C.vec (C.tri.previousInFace e)])

/-- `area2`, flat_triangulation_collapsed.cc:200-221. -/
def area2 (dbg : Bool) (C : Collapsed T) : Except Err T := C.tri.halfEdges.foldlM (areaStep dbg C) 0

end Collapsed

end Verif
