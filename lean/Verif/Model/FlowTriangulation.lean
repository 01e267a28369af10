import Verif.Model.OfFaces
import Verif.Model.Vertical
import Mathlib.Data.List.Sort

/-!
# Triangulations of flow components

libflatsurf/src/flow_triangulation.cc and the parts of libflatsurf/src/flow_decomposition.cc that build a triangulation of the
decomposition.

A flow component is given by its perimeter, which in C++ is determined by intervalxt. Two flow connections are equal if and only
if their saddle connections are, flow_connection.cc:42-44. The saddle connections are modelled by keys `c` such that `neg c` is the
key of the negative saddle connection; `vec` are the vectors of the saddle connections. A half edge of the triangulation is
given by its index, i.e., `HalfEdge(n)` with positive `n` has index `2 * (n - 1)`.
-/

namespace Verif.FlowTriangulation

open Vertical

/-- `ImplementationOf<FlowConnection>::Kind`, impl/flow_connection.impl.hpp:38-43. -/
inductive Kind where
  | parallel | bottom | top | antiparallel
deriving DecidableEq, Repr

/-- `FlowConnection`, impl/flow_connection.impl.hpp:34-60. The component is the one that contains the connection. -/
structure Connection where
  key : HE
  kind : Kind
deriving DecidableEq, Repr

variable {T : Type} [CommRing T] [LinearOrder T]
variable {K : Type*} [Field K] [LinearOrder K] [IsStrictOrderedRing K]

/-! ### The map from half edges to vectors -/

/-- `std::unordered_map<HalfEdge, Vector<T>>`. -/
structure Vectors (T : Type) where
  entry : HE → Option (Vec T)
  size : ℕ

/-- `vectors[e] = v`. -/
def Vectors.set (V : Vectors T) (e : HE) (v : Vec T) : Vectors T :=
  ⟨Function.update V.entry e (some v), if (V.entry e).isSome then V.size else V.size + 1⟩

/-- The side effect of `vectors[e]`, which inserts a default element. -/
def Vectors.touch (V : Vectors T) (e : HE) : Vectors T := if (V.entry e).isSome then V else V.set e 0

/-- The value of `vectors[e]`. -/
def Vectors.get (V : Vectors T) (e : HE) : Vec T := (V.entry e).getD 0

/-- `HalfEdge(vectors.size() / 2 + 1)`, flow_triangulation.cc:89 and 114. -/
def Vectors.fresh (V : Vectors T) : HE := 2 * (V.size / 2)

/-- `HalfEdge(404)`, flow_triangulation.cc:68, 158, 209. -/
def sentinel : HE := 806

/-! ### The perimeter -/

/-- The members `toHalfEdge` and `toConnection`, impl/flow_triangulation.impl.hpp:46-47, and the local variable `vectors`. -/
structure Numbering (T : Type) where
  toHalfEdge : HE → Option HE
  toConnection : HE → Option HE
  vectors : Vectors T

/-- The body of the loop in flow_triangulation.cc:112-120. -/
def Numbering.add (dbg : Bool) (vec : HE → Vec T) (N : Numbering T) (connection : HE) : Except Err (Numbering T) :=
  if dbg ∧ (N.toHalfEdge connection).isSome then .error .logicError
  else
    let halfEdge := match N.toHalfEdge (neg connection) with
      | none => N.vectors.fresh
      | some h => neg h
    if dbg ∧ (N.vectors.entry halfEdge).isSome ∧ N.vectors.get halfEdge ≠ vec connection then .error .logicError
    else
      let vectors := N.vectors.set halfEdge (vec connection)
      .ok { toHalfEdge := Function.update N.toHalfEdge connection (some halfEdge)
            toConnection := if (N.toConnection halfEdge).isSome then N.toConnection
              else Function.update N.toConnection halfEdge (some connection)
            vectors := vectors.set (neg halfEdge) (-vectors.get halfEdge) }

/-- The loop in flow_triangulation.cc:112-120. -/
def numbering (dbg : Bool) (vec : HE → Vec T) (perimeter : List Connection) : Except Err (Numbering T) :=
  perimeter.foldlM (fun N c => N.add dbg vec c.key) ⟨fun _ => none, fun _ => none, ⟨fun _ => none, 0⟩⟩

/-! ### The chain of vertices -/

/-- `Vertex`, flow_triangulation.cc:132-151. -/
structure Vertex (T : Type) where
  x : T
  bottom : Bool
  halfEdge : HE

/-- The constructor of `Vertex`, flow_triangulation.cc:133-138. -/
def Vertex.make (x : T) (bottom : Bool) (halfEdge : HE) : Except Err (Vertex T) :=
  if x ≥ 0 then .ok ⟨x, bottom, halfEdge⟩ else .error .invalidArgument

/-- The loop in flow_triangulation.cc:162-167. -/
def bottomChain (N : Numbering T) (vec : HE → Vec T) (v : Vec T) : T → List Connection → Except Err (List (Vertex T))
  | _, [] => .ok []
  | x, c :: cs =>
    if c.kind = .top then .ok []
    else do
      let x := x + projectPerpendicular v (vec c.key)
      let u ← Vertex.make x true ((N.toHalfEdge c.key).getD 0)
      return u :: (← bottomChain N vec v x cs)

/-- The loop in flow_triangulation.cc:172-177; the argument is the reversed perimeter. -/
def topChain (N : Numbering T) (vec : HE → Vec T) (v : Vec T) (bottomChainEnd : HE) :
    T → List Connection → Except Err (List (Vertex T))
  | _, [] => .ok []
  | x, c :: cs =>
    let halfEdge := (N.toHalfEdge c.key).getD 0
    if halfEdge = bottomChainEnd then .ok []
    else do
      let x := x - projectPerpendicular v (vec c.key)
      let u ← Vertex.make x false halfEdge
      return u :: (← topChain N vec v bottomChainEnd x cs)

/-- The vertices on the contour in the order of their horizontal coordinate, flow_triangulation.cc:155-180. Insertion sort is a
stable sort. -/
def chain (N : Numbering T) (vec : HE → Vec T) (v : Vec T) (perimeter : List Connection) : Except Err (List (Vertex T)) := do
  let start ← Vertex.make 0 true sentinel
  let bottom ← bottomChain N vec v 0 perimeter
  let bottomChainEnd := ((start :: bottom).getLast?.map Vertex.halfEdge).getD 0
  let top ← topChain N vec v bottomChainEnd 0 perimeter.reverse
  return (start :: bottom ++ top).insertionSort fun a b => a.x ≤ b.x

/-! ### Triangulation of the polygon -/

/-- The local variables `vectors` and `faces`, flow_triangulation.cc:85-86. -/
structure State (T : Type) where
  vectors : Vectors T
  faces : List (HE × HE × HE)

variable (A : Option (Approx T K)) (dbg : Bool)

/-- The lambda `face`, flow_triangulation.cc:88-109. -/
def face (st : State T) (f g : HE) : Except Err (HE × State T) :=
  let e := st.vectors.fresh
  if dbg ∧ ¬ (e / 2 ≠ f / 2 ∧ e / 2 ≠ g / 2 ∧ f / 2 ≠ g / 2) then .error .logicError
  else if dbg ∧ ¬ ((st.vectors.entry f).isSome ∧ (st.vectors.entry g).isSome) then .error .logicError
  else
    let vectors := (st.vectors.touch f).touch g
    if dbg ∧ Vec.ccw A (vectors.get f) (vectors.get g) ≠ .counterclockwise then .error .logicError
    else
      let vectors := vectors.set (neg e) (vectors.get f + vectors.get g)
      .ok (e, ⟨vectors.set e (-vectors.get (neg e)), st.faces ++ [(e, f, g)]⟩)

/-- `u->halfEdge = -(u->bottom ? face(v.halfEdge, u->halfEdge) : face(u->halfEdge, v.halfEdge))`, flow_triangulation.cc:207, 233. -/
def clip (st : State T) (u v : Vertex T) : Except Err (State T × Vertex T) := do
  let (e, st) ← if u.bottom then face A dbg st v.halfEdge u.halfEdge else face A dbg st u.halfEdge v.halfEdge
  return (st, { u with halfEdge := neg e })

/-- The final face, flow_triangulation.cc:198-202 and 217-222, where `l` is the last vertex on the chain. -/
def finish (st : State T) (u v l : Vertex T) : Except Err (State T) :=
  if dbg ∧ ¬ (u.bottom = true ∧ l.bottom = false) then .error .logicError
  else .ok { st with faces := st.faces ++ [(v.halfEdge, u.halfEdge, l.halfEdge)] }

/-- The loop in flow_triangulation.cc:193-208. The last vertex is only given when `u == end(chain) - 2`. The deque is a list that
starts at the front. -/
def opposite (l : Option (Vertex T)) : State T → Vertex T → List (Vertex T) → Except Err (State T × Vertex T × List (Vertex T))
  | st, u, _ :: v :: S =>
    match l, S with
    | some l, [] => do
      let st ← finish dbg st u v l
      return (st, u, [v])
    | _, _ => do
      let (st, u) ← clip A dbg st u v
      opposite l st u (v :: S)
  | st, u, S => .ok (st, u, S)

/-- The loop in flow_triangulation.cc:212-234. Here, the deque is a list that starts at the back. -/
def same (l : Option (Vertex T)) : State T → Vertex T → List (Vertex T) → Except Err (State T × Vertex T × List (Vertex T))
  | _, _, [] => .error .undefined
  | st, u, v :: S =>
    if dbg ∧ u.bottom ≠ v.bottom then .error .logicError
    else match l, decide (S.length ≤ 1) with
      | some l, true => do
        let st ← finish dbg st u v l
        return (st, u, S)
      | _, _ =>
        let vectors := (st.vectors.touch v.halfEdge).touch u.halfEdge
        let st := { st with vectors := vectors }
        if Vec.ccw A (vectors.get v.halfEdge) (vectors.get u.halfEdge) ≠ (if u.bottom then .counterclockwise else .clockwise) then
          if dbg ∧ l.isSome then .error .logicError else .ok (st, u, v :: S)
        else do
          let (st, u) ← clip A dbg st u v
          if S.length > 1 then same l st u S else return (st, u, S)

/-- The body of the loop in flow_triangulation.cc:190-238. -/
def advance (l : Option (Vertex T)) (st : State T) (S : List (Vertex T)) (u : Vertex T) :
    Except Err (State T × List (Vertex T)) :=
  if dbg ∧ ¬ 2 ≤ S.length then .error .logicError
  else match S.getLast? with
    | none => .error .undefined
    | some back =>
      if back.bottom ≠ u.bottom then do
        let (st, u, S) ← opposite A dbg l st u S
        match S with
        | [] => throw .undefined
        | front :: S => return (st, { front with halfEdge := sentinel } :: S ++ [u])
      else do
        let (st, u, S) ← same A dbg l st u S.reverse
        return (st, S.reverse ++ [u])

/-- The loop in flow_triangulation.cc:190-238 over the remaining vertices of the chain. -/
def sweep : State T → List (Vertex T) → List (Vertex T) → Except Err (State T)
  | _, _, [] => .error .undefined
  | st, _, [_] => .ok st
  | st, S, u :: w :: rest => do
    let (st, S) ← advance A dbg (if rest = [] then some w else none) st S u
    sweep st S (w :: rest)

/-- flow_triangulation.cc:182-239. Incrementing beyond the end of the chain is undefined. -/
def triangulate (st : State T) : List (Vertex T) → Except Err (State T)
  | s :: t :: rest => sweep A dbg st [s, t] rest
  | _ => .error .undefined

/-- The members of `ImplementationOf<FlowTriangulation>`, impl/flow_triangulation.impl.hpp:42-47. -/
structure Result (T : Type) where
  triangulation : FlatTri T
  toHalfEdge : HE → Option HE
  toConnection : HE → Option HE

/-- The constructor of `ImplementationOf<FlowTriangulation>`, flow_triangulation.cc:83-260. The final assertion compares the
boundary of the triangulation to the connections whose negative is not in the same component. -/
def make (vec : HE → Vec T) (v : Vec T) (perimeter : List Connection) : Except Err (Result T) := do
  let N ← numbering dbg vec perimeter
  let c ← chain N vec v perimeter
  let st ← triangulate A dbg ⟨N.vectors, []⟩ c
  let C ← Tri.ofFaces dbg st.faces
  let S ← FlatTri.ofFunction A dbg C st.vectors.get
  if dbg ∧ (S.tri.halfEdges.filter S.tri.boundary).toFinset ≠
      (perimeter.filter fun c => neg c.key ∉ perimeter.map Connection.key).toFinset.image
        (fun c => neg ((N.toHalfEdge c.key).getD 0)) then throw .logicError
  return ⟨S, N.toHalfEdge, N.toConnection⟩

/-! ### Triangulations of decompositions

The components of a decomposition are given by the list of their perimeters. -/

/-- `firstInnerEdge` for the component `i`, flow_decomposition.cc:183-197. The edge is given by its positive half edge. The
subtraction is on unsigned integers in C++, we assume that there are at least three edges on each perimeter. -/
def firstInnerEdge (components : List (List Connection)) (i : ℕ) : Except Err HE :=
  let perimeterHalfEdges := (components.map List.length).sum
  if dbg ∧ perimeterHalfEdges % 2 ≠ 0 then .error .logicError
  else if dbg ∧ ∃ other ∈ components.take i, ¬ 4 ≤ other.length then .error .logicError
  else
    let innerHalfEdges := ((components.take i).map fun other => 2 * (other.length - 3)).sum
    .ok (2 * ((perimeterHalfEdges + innerHalfEdges) / 2))

/-- The state of the loops in `halfEdge`, flow_decomposition.cc:201-211: the map and its size, and the value that has been returned. -/
structure Search where
  toHalfEdge : HE → Option HE
  size : ℕ
  result : Option HE

/-- The body of the loop in flow_decomposition.cc:203-210. `find(other)` fails if and only if `find(-other)` fails. -/
def Search.visit (connection : HE) (s : Search) (other : HE) : Search :=
  if s.result.isSome then s
  else
    let s := if (s.toHalfEdge other).isSome then s
      else { s with
        toHalfEdge := Function.update (Function.update s.toHalfEdge other (some (2 * (s.size / 2)))) (neg other)
          (some (neg (2 * (s.size / 2))))
        size := s.size + 2 }
    if other = connection ∨ other = neg connection then { s with result := s.toHalfEdge connection } else s

/-- `halfEdge`, flow_decomposition.cc:200-213. -/
def halfEdge (components : List (List Connection)) (connection : HE) : Except Err HE :=
  match ((components.flatten.map Connection.key).foldl (Search.visit connection) ⟨fun _ => none, 0, none⟩).result with
  | some h => .ok h
  | none => .error (if dbg then .logicError else .undefined)

/-- `embedding`, flow_triangulation.cc:55-77, of the component `i`, evaluated at a half edge. -/
def embedding (components : List (List Connection)) (i : ℕ) (R : Result T) (source : HE) : Except Err HE :=
  let S := R.triangulation
  match S.tri.edges.filter fun e => (R.toConnection e).isNone && (R.toConnection (neg e)).isNone with
  | [] => .error .undefined
  | localFirstInnerEdge :: _ =>
    match firstInnerEdge dbg components i with
    | .error err => .error err
    | .ok globalFirstInnerEdge =>
      if dbg ∧ ¬ localFirstInnerEdge ≤ globalFirstInnerEdge then .error .logicError
      else if S.tri.boundary source then .ok sentinel
      else match R.toConnection source with
        | some c => halfEdge dbg components c
        | none => .ok (source + globalFirstInnerEdge - localFirstInnerEdge)

/-- The loop in flow_decomposition.cc:102-103, where `vectors` is a map. -/
def embedVectors (components : List (List Connection)) (i : ℕ) (R : Result T) :
    (HE → Option (Vec T)) → List HE → Except Err (HE → Option (Vec T))
  | vectors, [] => .ok vectors
  | vectors, e :: es =>
    match embedding dbg components i R e with
    | .error err => .error err
    | .ok x => embedVectors components i R (Function.update vectors x (some (R.triangulation.vec e))) es

/-- flow_decomposition.cc:104-106. -/
def embedFaces (components : List (List Connection)) (i : ℕ) (R : Result T) :
    List (HE × HE × HE) → Except Err (List (HE × HE × HE))
  | [] => .ok []
  | (a, b, c) :: l =>
    match embedding dbg components i R a, embedding dbg components i R b, embedding dbg components i R c,
        embedFaces components i R l with
    | .ok a, .ok b, .ok c, .ok l => .ok ((a, b, c) :: l)
    | .error err, _, _, _ => .error err
    | _, .error err, _, _ => .error err
    | _, _, .error err, _ => .error err
    | _, _, _, .error err => .error err

/-- flow_decomposition.cc:100-108, for the components starting with the `i`-th. `none` for the faces is when `faces()` does not
return. -/
def assemble (components : List (List Connection)) : ℕ → List (Result T) → (HE → Option (Vec T)) →
    Except Err ((HE → Option (Vec T)) × List (HE × HE × HE))
  | _, [], vectors => .ok (vectors, [])
  | i, R :: Rs, vectors =>
    match embedVectors dbg components i R vectors R.triangulation.tri.halfEdges, R.triangulation.tri.facesList with
    | .error err, _ => .error err
    | _, none => .error .undefined
    | .ok vectors, some l =>
      match embedFaces dbg components i R l with
      | .error err => .error err
      | .ok l =>
        match assemble components (i + 1) Rs vectors with
        | .error err => .error err
        | .ok (vectors, ls) => .ok (vectors, l ++ ls)

/-- `triangulation`, flow_decomposition.cc:97-113. `vectors.at` throws when there is no entry. -/
def triangulation (vec : HE → Vec T) (v : Vec T) (components : List (List Connection)) : Except Err (FlatTri T) := do
  let Rs ← components.mapM (make A dbg vec v)
  let (vectors, faces) ← assemble dbg components 0 Rs fun _ => none
  let C ← Tri.ofFaces dbg faces
  if ∃ e ∈ C.halfEdges, (vectors e).isNone then throw .logicError
  FlatTri.ofFunction A dbg C fun e => (vectors e).getD 0

end Verif.FlowTriangulation
