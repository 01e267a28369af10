import Verif.Model.FlatTriangulation

/-!
# Points

Model of libflatsurf/src/point.cc and impl/point.impl.hpp. The surface of a point is an explicit argument.
-/

namespace Verif

/-- The data of a `Point`, impl/point.impl.hpp:66-68: barycentric coordinates with respect to the corners of the face of
`face`, starting with the source of `face`. -/
@[ext]
structure Point (T : Type) where
  face : HE
  a : T
  b : T
  c : T
deriving DecidableEq, Repr

namespace FlatTri

variable {T : Type} [CommRing T] [LinearOrder T]

/-- `face(face)`, flat_triangulation_combinatorics.cc:143-146. -/
def sides (S : FlatTri T) (e : HE) : List HE := [e, S.tri.nextInFace e, S.tri.previousInFace e]

/-- `Vertex::operator==`, vertex.cc:37-41: the first half edges of the sets are compared. The assertion there is not
modelled. -/
def sameVertex (v w : Finset HE) : Bool := decide (v.min = w.min)

/-- `rotated`, point.cc:266-276. The assertion that the half edge delimits the face is not modelled. -/
def rotated (S : FlatTri T) (p : Point T) (e : HE) : T × T × T :=
  if e = p.face then (p.a, p.b, p.c)
  else if e = S.tri.nextInFace p.face then (p.b, p.c, p.a)
  else (p.c, p.a, p.b)

/-- The loop in `normalize`, point.cc:256-260. After three rotations the point is the same again so a fourth check means
that the loop does not end. -/
def normalizeLoop (S : FlatTri T) : ℕ → Point T → Except Err (Point T)
  | 0, _ => .error .undefined
  | n + 1, p =>
    if p.c ≠ 0 ∨ p.a = 0 then
      let e := S.tri.nextInFace p.face
      let r := S.rotated p e
      normalizeLoop S n ⟨e, r.1, r.2.1, r.2.2⟩
    else .ok p

/-- `normalize`, point.cc:228-264. -/
def normalize (S : FlatTri T) (p : Point T) : Except Err (Point T) :=
  if p.a + p.b + p.c = 0 then .error .invalidArgument
  else if p.a < 0 ∨ p.b < 0 ∨ p.c < 0 then .error .logicError
  else
    let q := if p.a + p.b + p.c < 0 then ⟨p.face, p.a * -1, p.b * -1, p.c * -1⟩ else p
    if q.a > 0 ∧ q.b > 0 ∧ q.c > 0 then .ok q else S.normalizeLoop 3 q

/-- The constructor from barycentric coordinates, point.cc:70-73 and 217-220. -/
def point (dbg : Bool) (S : FlatTri T) (e : HE) (a b c : T) : Except Err (Point T) :=
  if S.tri.size ≤ e then .error (if dbg then .invalidArgument else .undefined)
  else S.normalize ⟨e, a, b, c⟩

/-- The constructor from a vertex, point.cc:67-68. -/
def pointAt (dbg : Bool) (S : FlatTri T) (v : Finset HE) : Except Err (Point T) :=
  match v.min with
  | ⊤ => .error .undefined
  | (e : ℕ) => S.point dbg e 1 0 0

/-- `vertex`, point.cc:167-174. -/
def vertexOf (S : FlatTri T) (p : Point T) : Option (Finset HE) :=
  if p.b ≠ 0 ∨ p.c ≠ 0 then none else S.tri.source p.face

/-- `edge`, point.cc:176-183. -/
def edgeOf (p : Point T) : Option Edge := if p.c ≠ 0 then none else some (Edge.ofHalfEdge p.face)

/-- `at`, point.cc:207-210. -/
def pointIsAt (S : FlatTri T) (p : Point T) (v : Finset HE) : Bool :=
  match S.vertexOf p with
  | none => false
  | some w => sameVertex w v

/-- `*vertex == Vertex::source(e)` in `on`. -/
def isSource (S : FlatTri T) (v : Finset HE) (e : HE) : Bool :=
  match S.tri.source e with
  | none => false
  | some w => sameVertex v w

/-- `on`, point.cc:198-205. -/
def pointIsOn (S : FlatTri T) (p : Point T) (e : Edge) : Bool :=
  match S.vertexOf p with
  | some v => S.isSource v e.positive || S.isSource v e.negative
  | none => decide (edgeOf p = some e)

/-- `in`, point.cc:185-196. -/
def pointIsIn (S : FlatTri T) (p : Point T) (e : HE) : Bool :=
  (S.sides e).any (fun side => decide (p.face = side)) ||
    (S.sides e).any (fun side => S.pointIsOn p (Edge.ofHalfEdge side))

/-- The body of the second loop in `coordinates`, point.cc:94-99. -/
def acrossSide (S : FlatTri T) (p : Point T) (e side : HE) : Option (T × T × T) :=
  if p.face = neg side ∧ p.c = 0 then some (S.rotated ⟨side, p.b, p.a, p.c⟩ e)
  else if S.tri.previousInFace p.face = neg side ∧ p.b = 0 ∧ p.c = 0 then some (S.rotated ⟨side, p.a, p.b, p.c⟩ e)
  else none

/-- `coordinates`, point.cc:84-112. -/
def coordinates (S : FlatTri T) (p : Point T) (e : HE) : Except Err (T × T × T) :=
  if !S.pointIsIn p e then .error .invalidArgument
  else if (S.sides e).any (fun side => decide (side = p.face)) then .ok (S.rotated p e)
  else match (S.sides e).findSome? (S.acrossSide p e) with
    | some r => .ok r
    | none => match S.vertexOf p with
      | none => .error .undefined
      | some v => match (S.sides e).find? (S.isSource v) with
        | some side => .ok (S.rotated ⟨side, 1, 0, 0⟩ e)
        | none => .error .undefined

/-- `operator==`, point.cc:146-160. -/
def pointEq (S : FlatTri T) (p q : Point T) : Except Err Bool :=
  if !S.pointIsIn q p.face then .ok false
  else match S.vertexOf p with
    | some v => match S.vertexOf q with
      | some w => .ok (sameVertex v w)
      | none => .ok false
    | none => do
      let (a, b, c) ← S.coordinates q p.face
      let l := p.a + p.b + p.c
      let m := a + b + c
      return decide (l * a = m * p.a) && decide (l * b = m * p.b) && decide (l * c = m * p.c)

/-- `crossed`, point.cc:295-329. -/
def crossed (S : FlatTri T) (p : Point T) : T × T × T :=
  let A := -S.vec (S.tri.nextInFace (neg p.face))
  let B := S.vec (S.tri.previousInFace (neg p.face))
  let C := B + S.vec (S.tri.nextInFace p.face)
  let det := B.x * A.y - B.y * A.x
  let lb := A.y * C.x - A.x * C.y
  let la := -B.y * C.x + B.x * C.y
  let d := det - la - lb
  (det * p.b + p.c * lb, det * p.a + p.c * la, p.c * d)

/-- `barycentric`, point.cc:471-491. -/
def barycentric (S : FlatTri T) (e : HE) (xy : Vec T) : T × T × T :=
  let AB := S.vec e
  let AC := -S.vec (S.tri.previousInFace e)
  let det := AB.x * AC.y - AC.x * AB.y
  let b := AC.y * xy.x - AC.x * xy.y
  let c := -AB.y * xy.x + AB.x * xy.y
  (det - b - c, b, c)

/-- `cartesian`, point.cc:331-355. Here, `div` is `LinearDeformationRelation::truediv`. -/
def cartesian (div : T → T → Option T) (S : FlatTri T) (p : Point T) : Except Err (Vec T) :=
  let AC := -S.vec (S.tri.previousInFace p.face)
  let BC := S.vec p.face
  let abc := p.a + p.b + p.c
  let xy := p.c • AC + p.b • BC
  match div xy.x abc, div xy.y abc with
  | some x, some y => .ok ⟨x, y⟩
  | _, _ => .error .invalidArgument

/-- `vector`, point.cc:212-216. -/
def pointVector (div : T → T → Option T) (S : FlatTri T) (p : Point T) (origin : HE) : Except Err (Vec T) := do
  let (a, b, c) ← S.coordinates p origin
  S.cartesian div ⟨origin, a, b, c⟩

/-! ### Hashing -/

/-- The loop computing the first digits of the binary expansion of `x / y`, point.cc:528-536. -/
def binaryDigits : ℕ → T → T → ℕ → ℕ
  | 0, _, _, hash => hash
  | n + 1, x, y, hash =>
    if y ≤ x then binaryDigits n ((x - y) * 2) y ((hash + 1) * 2)
    else binaryDigits n (x * 2) y (hash * 2)

/-- `quot` for types other than integers and rationals, point.cc:518-538; `sizeof(size_t)` is 8. -/
def quot (x y : T) : ℕ := binaryDigits 8 x y 0

/-- The arguments of `hash_combine`, with `Edge`s given by their positive half edge. -/
inductive HashArgs where
  | vertex (e : HE)
  | edge (e : Edge) (q : ℕ)
  | center (e f : HE)
  | equal (e : HE) (q : ℕ)
  | inner (e : HE) (q r : ℕ)

/-- `std::hash<Point>`, point.cc:500-577, with `h` for the combination of the arguments to a number and `quot` for the
hash of a quotient. -/
def hashPoint (h : HashArgs → ℕ) (quot : T → T → ℕ) (S : FlatTri T) (p : Point T) : Except Err ℕ :=
  match S.vertexOf p with
  | some v => match v.min with
    | ⊤ => .error .undefined
    | (e : ℕ) => .ok (h (.vertex e))
  | none => do
    let e := p.face
    let (a, b, c) ← S.coordinates p e
    let max := max (max a b) c
    match edgeOf p with
    | some edge => return h (.edge edge (if a = max then quot b a else quot a b))
    | none =>
      let e1 := S.tri.nextInFace e
      let e2 := S.tri.previousInFace e
      if a = max ∧ b = max ∧ c = max then
        let m := min (min e e1) e2
        return h (.center m (S.tri.nextInFace m))
      else if a = max ∧ b = max then return h (.equal e (quot c max))
      else if a = max ∧ c = max then return h (.equal e2 (quot b max))
      else if b = max ∧ c = max then return h (.equal e1 (quot a max))
      else if a = max then return h (.inner e (quot b max) (quot c max))
      else if b = max then return h (.inner e1 (quot c max) (quot a max))
      else if c = max then return h (.inner e2 (quot a max) (quot b max))
      else .error .undefined

end FlatTri

end Verif
