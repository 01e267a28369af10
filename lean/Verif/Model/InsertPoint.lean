import Verif.Model.Point
import Verif.Model.Path

/-!
# Points and paths when a vertex is inserted in a face

Model of libflatsurf/src/insert_marked_point_in_face_deformation_relation.cc. Here, `S` is the domain, `S'` the codomain.
-/

namespace Verif.FlatTri

variable {T : Type} [CommRing T] [LinearOrder T]

/-- `point`, insert_marked_point_in_face_deformation_relation.cc:103-110, where `AV` is the half edge
`*inserted.incoming().begin()`. The constructor of the point, point.cc:224-226, adds the vector to the vertex. Only the
first case of that addition is modelled, point.cc:366-401, where the vector ends in the face. -/
def insertedPoint (dbg : Bool) (S S' : FlatTri T) (AV : HE) : Except Err (Point T) :=
  let AB := S'.tri.previousAtVertex AV
  let (a, b, c) := S.barycentric AB (S'.vec AV)
  if 0 ≤ a ∧ 0 ≤ b ∧ 0 ≤ c then S.point dbg AB a b c else .error .undefined

/-- The coordinates with respect to the face `(V, B, C)` in the codomain that are computed in the body of the loop,
insert_marked_point_in_face_deformation_relation.cc:65-74. -/
def insertCoordinates (S' : FlatTri T) (AB : HE) (ap bp cp : T) : T × T × T :=
  let BV := S'.tri.nextInFace AB
  let (a, b, c) := S'.rotated ⟨AB, 1, 0, 0⟩ BV
  let (va, ba, ca) := S'.crossed ⟨BV, a, b, c⟩
  (ap * va, ap * ba + bp * (va + ba + ca), ap * ca + cp * (va + ba + ca))

/-- The loop, insert_marked_point_in_face_deformation_relation.cc:59-80. In each iteration, the coordinates of the point with
respect to `face` are used. After the loop there is a `LIBFLATSURF_UNREACHABLE`. -/
def insertPointLoop (dbg : Bool) (S S' : FlatTri T) (p : Point T) (face : HE) : List HE → Except Err (Point T)
  | [] => .error (if dbg then .logicError else .undefined)
  | AB :: rest => do
    let (ap, bp, cp) ← S.coordinates p face
    let (vp, bp, cp) := insertCoordinates S' AB ap bp cp
    if 0 ≤ vp ∧ 0 ≤ bp ∧ 0 ≤ cp then S'.point dbg (neg (S'.tri.nextInFace AB)) vp bp cp
    else insertPointLoop dbg S S' p face rest

/-- Whether a point is a point of the domain or of the codomain. -/
inductive OnSurface where
  | domain | codomain
deriving DecidableEq, Repr

/-- `operator()(Point)`, insert_marked_point_in_face_deformation_relation.cc:47-83. Returns a point and the surface it is a
point of. -/
def insertPoint (dbg : Bool) (S S' : FlatTri T) (AV : HE) (p : Point T) : Except Err (OnSurface × Point T) := do
  let V ← insertedPoint dbg S S' AV
  if !S.pointIsIn V p.face then return (.domain, p)
  let q ← insertPointLoop dbg S S' p p.face [p.face, S.tri.nextInFace p.face, S.tri.previousInFace p.face]
  return (.codomain, q)

/-- `operator()(Path)`, insert_marked_point_in_face_deformation_relation.cc:40-45. Returns a path and the surface it is a path
of. -/
def insertPath (p : List Saddle) : OnSurface × List Saddle := (.domain, p)

/-! ### Inserting on an edge, insert_marked_point_on_edge_deformation_relation.cc -/

/-- `point`, insert_marked_point_on_edge_deformation_relation.cc:129-131. As in `insertedPoint`, only the first case of
the addition is modelled. -/
def splitPoint (dbg : Bool) (S S' : FlatTri T) (split a : HE) : Except Err (Point T) :=
  let (x, y, z) := S.barycentric split (S'.vec a)
  if 0 ≤ x ∧ 0 ≤ y ∧ 0 ≤ z then S.point dbg split x y z else .error .undefined

/-- The loop that finds the side on which the vertex was inserted, insert_marked_point_on_edge_deformation_relation.cc:66-67. -/
def splitSide (S : FlatTri T) (V : Point T) : ℕ → HE → Option HE
  | 0, _ => none
  | fuel + 1, face => if S.pointIsOn V (Edge.ofHalfEdge face) then some face else splitSide S V fuel (S.tri.nextInFace face)

/-- The part of `operator()(Point)` after that loop, insert_marked_point_on_edge_deformation_relation.cc:69-104. -/
def splitCoordinates (dbg : Bool) (S S' : FlatTri T) (p : Point T) (AB : HE) : Except Err (Point T) := do
  let (ap, bp, cp) ← S.coordinates p AB
  let BC := S.tri.nextInFace AB
  let CA := S.tri.nextInFace BC
  let VC := S'.tri.previousInFace CA
  let (a, b, c) := S'.rotated ⟨CA, 0, 1, 0⟩ VC
  let (ca, va, ba) := S'.crossed ⟨VC, a, b, c⟩
  if 0 ≤ ap * ca + cp * (ca + va + ba) ∧ 0 ≤ ap * va ∧ 0 ≤ ap * ba + bp * (ca + va + ba) then
    S'.point dbg (neg VC) (ap * ca + cp * (ca + va + ba)) (ap * va) (ap * ba + bp * (ca + va + ba))
  else
    let (a, b, c) := S'.rotated ⟨BC, 1, 0, 0⟩ (neg VC)
    let (vb, cb, ab) := S'.crossed ⟨neg VC, a, b, c⟩
    if 0 ≤ bp * vb ∧ 0 ≤ bp * cb + cp * (vb + cb + ab) ∧ 0 ≤ bp * ab + ap * (vb + cb + ab) then
      S'.point dbg VC (bp * vb) (bp * cb + cp * (vb + cb + ab)) (bp * ab + ap * (vb + cb + ab))
    else .error (if dbg then .logicError else .undefined)

/-- `operator()(Point)`, insert_marked_point_on_edge_deformation_relation.cc:50-107. Returns a point and the surface it is a
point of. -/
def splitMapPoint (dbg : Bool) (fuel : ℕ) (S S' : FlatTri T) (split a : HE) (p : Point T) :
    Option (Except Err (OnSurface × Point T)) :=
  match splitPoint dbg S S' split a with
  | .error err => some (.error err)
  | .ok V =>
    if !S.pointIsIn V p.face then some (.ok (.domain, p))
    else match splitSide S V fuel p.face with
      | none => none
      | some AB => some ((splitCoordinates dbg S S' p AB).map fun q => (.codomain, q))

end Verif.FlatTri
