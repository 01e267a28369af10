import Verif.Model.Permutation
import Mathlib.Data.Finset.Basic

/-!
# Combinatorial triangulations

Model of `libflatsurf/src/flat_triangulation_combinatorial.cc`, `libflatsurf/src/flat_triangulation_combinatorics.cc`
and `libflatsurf/src/vertex.cc`.

Assertions (`LIBFLATSURF_ASSERT*`) exist only in debug builds. Where they make a difference a parameter `dbg` says which
build is modelled.
-/

namespace Verif

open Function

/-- `ImplementationOf<FlatTriangulationCombinatorial>`, impl/flat_triangulation_combinatorial.impl.hpp.
`vertexes` are the vertices (`HalfEdgeSet`s of outgoing half edges, vertex.cc). The members `halfEdges` and `edges` are
determined by the size (`resetEdges`, flat_triangulation_combinatorial.cc:185-196). -/
@[ext]
structure Tri where
  vertices : Perm
  faces : Perm
  vertexes : List (Finset HE)

namespace Tri

/-- Number of half edges. -/
abbrev size (T : Tri) : ℕ := T.vertices.size

/-- `halfEdges()`, sorted by index, flat_triangulation_combinatorial.cc:193-195. -/
def halfEdges (T : Tri) : List HE := List.range T.size

/-- `edges()`, sorted by index; given by their positive half edges, flat_triangulation_combinatorial.cc:186-191. -/
def edges (T : Tri) : List HE := (List.range (T.size / 2)).map (2 * ·)

/-- `nextInFace`, flat_triangulation_combinatorics.cc:47-51 (assertion dropped). -/
def nextInFace (T : Tri) (e : HE) : HE := T.faces.fwd e

/-- `previousInFace`, flat_triangulation_combinatorics.cc:53-57 (assertion dropped). -/
def previousInFace (T : Tri) (e : HE) : HE := T.faces.inv e

/-- `boundary`, flat_triangulation_combinatorics.cc:59-62. -/
def boundary (T : Tri) (e : HE) : Bool := T.faces.fwd e == e

/-- `nextAtVertex`, flat_triangulation_combinatorics.cc:64-68 (assertion dropped). -/
def nextAtVertex (T : Tri) (e : HE) : HE := T.vertices.fwd e

/-- `previousAtVertex`, flat_triangulation_combinatorics.cc:70-74 (assertion dropped). -/
def previousAtVertex (T : Tri) (e : HE) : HE := T.vertices.inv e

/-- `hasBoundary`, flat_triangulation_combinatorics.cc:208-211. -/
def hasBoundary (T : Tri) : Bool := T.halfEdges.any T.boundary

/-- The boundary half edges as collected in `clone` and `insertAt`, flat_triangulation_combinatorics.cc:95, 127. -/
def boundaries (T : Tri) : List HE := T.faces.domain.filter T.boundary

/-- The pairs from which `faces` is built, flat_triangulation_combinatorial.cc:110-117. -/
def facePairs (vertices : Perm) (boundaries : List HE) : List (HE × HE) :=
  vertices.domain.map fun e => if e ∉ boundaries then (neg (vertices.fwd e), e) else (e, e)

/-- `resetVertexes`, flat_triangulation_combinatorial.cc:165-169. -/
def mkVertexes (vertices : Perm) : Option (List (Finset HE)) := vertices.cycles.map fun cs => cs.map List.toFinset

/-- The private constructor, flat_triangulation_combinatorial.cc:105-134. The assertion in line 129 is only evaluated
in debug builds. `check` (lines 140-163) consists of assertions which always hold here. -/
def make (dbg : Bool) (vertices : Perm) (boundaries : List HE) : Except Err Tri := do
  let faces ← Perm.ofPairs (facePairs vertices boundaries)
  if vertices.size % 2 ≠ 0 then throw .invalidArgument
  let vertexes ← match mkVertexes vertices with
    | some vs => pure vs
    | none => throw .undefined
  if ∃ e ∈ faces.domain, faces.fwd e ≠ e ∧ faces.fwd (faces.fwd (faces.fwd e)) ≠ e then throw .invalidArgument
  if dbg ∧ ∃ e ∈ faces.domain, faces.fwd e = e ∧ e ∉ boundaries then throw .invalidArgument
  return ⟨vertices, faces, vertexes⟩

/-- `FlatTriangulationCombinatorial(const Permutation<HalfEdge>&)`, flat_triangulation_combinatorial.cc:53-54. -/
def ofVertices (dbg : Bool) (vertices : Perm) : Except Err Tri := make dbg vertices []

/-- The check of the order of half edges at a vertex, flat_triangulation_combinatorial.cc:48-50: only the last entry of
a cycle may be a boundary half edge. -/
def boundariesLast (cycles : List (List ℤ)) (boundaries : List ℤ) : Bool :=
  cycles.all fun c => c.dropLast.all fun e => !boundaries.contains e

/-- `FlatTriangulationCombinatorial(const std::vector<std::vector<int>>& vertices, const std::vector<int>& boundaries)`,
flat_triangulation_combinatorial.cc:43-51. -/
def ofIds (dbg : Bool) (cycles : List (List ℤ)) (boundaries : List ℤ) : Except Err Tri := do
  let cs ← cycles.mapM fun c => c.mapM heOfId
  let vertices ← Perm.ofCycles cs
  let bs ← boundaries.mapM heOfId
  let T ← make dbg vertices bs
  if boundariesLast cycles boundaries then return T else throw .invalidArgument

/-- `Vertex::source`, vertex.cc:45-47 (dereferencing `end()` is undefined). -/
def source (T : Tri) (e : HE) : Option (Finset HE) := T.vertexes.find? fun v => e ∈ v

/-- `ImplementationOf<Vertex>::afterFlip`, vertex.cc:80-91. The surface has been flipped already. -/
def afterFlip (vertices : Perm) (e : HE) (v : Finset HE) : Finset HE :=
  let b := vertices.inv (neg e)
  let d := vertices.inv e
  let v := if neg b ∈ v then v.erase e else v
  let v := if neg d ∈ v then v.erase (neg e) else v
  let v := if b ∈ v then insert (neg e) v else v
  let v := if d ∈ v then insert e v else v
  v

/-- `flip`, flat_triangulation_combinatorial.cc:222-254: the state afterwards and the exception, if any. Observers
are not part of this model. -/
def flip (dbg : Bool) (T : Tri) (e : HE) : Tri × Except Err Unit :=
  if T.size ≤ e ∨ T.size ≤ neg e then (T, .error .undefined)
  else if dbg ∧ (T.boundary e ∨ T.boundary (neg e)) then (T, .error .invalidArgument)
  else
    let a := T.nextInFace e
    let b := T.nextInFace a
    let c := T.nextInFace (neg e)
    let d := T.nextInFace c
    match T.vertices.mulCycle [b, a, neg e] with
    | .error err => (T, .error err)
    | .ok v1 =>
      match v1.mulCycle [d, c, e] with
      | .error err => ({ T with vertices := v1 }, .error err)
      | .ok v2 =>
        match T.faces.mulCycle [a, d, e] with
        | .error err => ({ T with vertices := v2 }, .error err)
        | .ok f1 =>
          match f1.mulCycle [c, b, neg e] with
          | .error err => ({ T with vertices := v2, faces := f1 }, .error err)
          | .ok f2 => (⟨v2, f2, T.vertexes.map (afterFlip v2 e)⟩, .ok ())

/-- A sequence of flips, each of which has to succeed. -/
def flips (dbg : Bool) (T : Tri) : List HE → Option Tri
  | [] => some T
  | e :: es => match T.flip dbg e with
    | (T', .ok ()) => flips dbg T' es
    | (_, .error _) => none

/-- `clone`, flat_triangulation_combinatorics.cc:91-96. -/
def clone (dbg : Bool) (T : Tri) : Except Err Tri := make dbg T.vertices T.boundaries

/-- `operator==`, flat_triangulation_combinatorics.cc:233-237. -/
def beq (T U : Tri) : Bool := T.vertices.beq U.vertices

/-- `relabel`, flat_triangulation_combinatorics.cc:130-141. -/
def relabel (dbg : Bool) (T : Tri) (r : Perm) : Except Err Tri := do
  if T.hasBoundary then throw .logicError
  if 2 * T.edges.length ≠ r.size then throw .invalidArgument
  if ∃ e ∈ T.edges, r.fwd (neg e) ≠ neg (r.fwd e) then throw .invalidArgument
  let p ← r.mul T.vertices
  let r' ← r.inverse
  let q ← p.mul r'
  ofVertices dbg q

/-- `operator~`, flat_triangulation_combinatorics.cc:228-231. -/
def mirror (dbg : Bool) (T : Tri) : Except Err Tri := do
  let v ← T.vertices.inverse
  make dbg v ((T.halfEdges.filter T.boundary).map neg)

/-- The loop in flat_triangulation_combinatorics.cc:108-121 for one cycle: after `e`, `nextInFace(e)` and
`nextInFace(nextInFace(e))` the half edges `-a`, `-b` and `-c` are inserted. -/
def insertInCycle (e f g a b c : HE) (cycle : List HE) : List HE :=
  cycle.flatMap fun x =>
    if x = e then [x, neg a] else if x = f then [x, neg b] else if x = g then [x, neg c] else [x]

/-- `insertAt`, flat_triangulation_combinatorics.cc:98-128. The names of the new edges are computed from the number of
edges, `HalfEdge(n + 1)` has index `2 n`. -/
def insertAt (dbg : Bool) (T : Tri) (e : HE) : Except Err Tri := do
  if T.size ≤ e then throw .undefined
  if T.boundary e then throw .invalidArgument
  let a := 2 * (T.size / 2)
  let b := a + 2
  let c := a + 4
  let cycles ← match T.vertices.cycles with
    | some cs => pure cs
    | none => throw .undefined
  let cycles := cycles.map (insertInCycle e (T.nextInFace e) (T.nextInFace (T.nextInFace e)) a b c) ++ [[a, b, c]]
  let vertices ← Perm.ofCycles cycles
  make dbg vertices T.boundaries

/-- The selection and conversion of faces in flat_triangulation_combinatorics.cc:150-155. -/
def asTriple : List HE → Option (HE × HE × HE)
  | [a, b, c] => some (a, b, c)
  | _ => none

/-- `faces()`, flat_triangulation_combinatorics.cc:148-156. -/
def facesList (T : Tri) : Option (List (HE × HE × HE)) := T.faces.cycles.map (List.filterMap asTriple)

end Tri

end Verif
