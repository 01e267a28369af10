import Verif.Model.FlatTriangulation
import Verif.Model.Saddle
import Verif.Model.Vertical
import Verif.Model.Bound
import Mathlib.Data.Finset.Sort

/-!
# Serialization (libflatsurf/flatsurf/cereal.hpp)

We model what is written to and read from an archive as a value. That cereal reproduces integers, strings, lists and pairs,
that GMP reproduces integers from their strings, and that coordinates serialize, is not part of this model. Neither are
pointers: when the same surface is written twice to an archive, then the second time only an id is written,
cereal.hpp:174-207.
-/

namespace Verif.Cereal

/-- `HalfEdge::save_minimal`, cereal.hpp:92-95. -/
def saveHalfEdge (e : HE) : ℤ := heId e

/-- `HalfEdge::load_minimal`, cereal.hpp:98-101. -/
def loadHalfEdge (value : ℤ) : Except Err HE := heOfId value

/-- `Edge::save_minimal`, cereal.hpp:104-107. -/
def saveEdge (e : Edge) : ℤ := heId e.positive

/-- `Edge::load_minimal`, cereal.hpp:110-113. -/
def loadEdge (value : ℤ) : Except Err Edge := do
  let e ← heOfId value
  return Edge.ofHalfEdge e

/-- `Bound::save`, cereal.hpp:116-119. -/
def saveBound (b : Bound) : ℤ := b.square

/-- `Bound::load`, cereal.hpp:122-125. -/
def loadBound (value : ℤ) : Bound := ⟨value⟩

/-- `save` for permutations, cereal.hpp:128-131. -/
def savePerm (p : Perm) : Except Err (List (List ℤ)) :=
  match p.cycles with
  | none => .error .undefined
  | some cs => .ok (cs.map (List.map saveHalfEdge))

/-- `load` for permutations, cereal.hpp:134-139. -/
def loadPerm (a : List (List ℤ)) : Except Err Perm := do
  let cs ← a.mapM fun c => c.mapM loadHalfEdge
  Perm.ofCycles cs

/-- What is written for a combinatorial triangulation. -/
structure TriArchive where
  vertices : List (List ℤ)
  faces : List (List ℤ)

/-- `save` for combinatorial triangulations, cereal.hpp:219-234. The functions `nextAtVertex` and `nextInFace` assert that
the half edge is not on the boundary. The pairs `faces` are not used for anything. -/
def saveTri (dbg : Bool) (T : Tri) : Except Err TriArchive := do
  if dbg ∧ ∃ e ∈ T.halfEdges, T.boundary e then throw .invalidArgument
  let vertices := T.halfEdges.map fun e => (e, T.nextAtVertex e)
  let v ← savePerm (← Perm.ofPairs vertices)
  let f ← savePerm (← Perm.ofPairs vertices)
  return ⟨v, f⟩

/-- `load` for combinatorial triangulations, cereal.hpp:236-243. -/
def loadTri (dbg : Bool) (a : TriArchive) : Except Err Tri := do
  let vertices ← loadPerm a.vertices
  Tri.ofVertices dbg vertices

section

variable {T : Type} [CommRing T] [LinearOrder T]
variable {K : Type*} [Field K] [LinearOrder K] [IsStrictOrderedRing K]

/-- `save` for flat triangulations, cereal.hpp:249-258. -/
def saveFlat (dbg : Bool) (S : FlatTri T) : Except Err (TriArchive × List (ℤ × Vec T)) := do
  let c ← saveTri dbg S.tri
  return (c, S.tri.halfEdges.map fun e => (saveHalfEdge e, S.vec e))

/-- `load` for flat triangulations, cereal.hpp:260-268. A half edge without vector makes `map.at` throw. -/
def loadFlat (A : Option (Approx T K)) (dbg : Bool) (a : TriArchive × List (ℤ × Vec T)) : Except Err (FlatTri T) := do
  let c ← loadTri dbg a.1
  let map ← a.2.mapM fun p => do
    let e ← loadHalfEdge p.1
    return (e, p.2)
  if ∃ e ∈ c.halfEdges, map.lookup e = none then throw .logicError
  FlatTri.ofFunction A dbg c fun e => (map.lookup e).getD 0

/-- `save` for chains, cereal.hpp:274-285, after the surface. -/
def saveChain (S : ChainSurface T K) (c : ChainObj T K) : List ℤ := (List.range S.size).map c.coefficients

/-- The operations in the loop in cereal.hpp:295-296: a new chain is created, a half edge is added to it, it is multiplied
with a coefficient and added to the chain `k`. -/
def loadChainOps (k : ℕ) : ℕ → List ℤ → List Chain.Op
  | _, [] => []
  | i, c :: cs =>
    [.zero, .addHalfEdge (k + 1 + i) (2 * i), .mul (k + 1 + i) c, .add k (k + 1 + i)] ++ loadChainOps k (i + 1) cs

/-- `load` for chains, cereal.hpp:287-297, after the surface: a new chain is created and the coefficients are added. -/
def loadChain (κ : Cost) (S : ChainSurface T K) (h : Chain.Heap T K) (a : List ℤ) : Except Err (Chain.Heap T K) :=
  Chain.run κ S (.zero :: loadChainOps h.n 0 a) h

/-- `load` for vertical directions, cereal.hpp:354-361, after the surface; `save` writes the vector, cereal.hpp:348-352. -/
def loadVertical (v : Vec T) : Except Err (Vertical T) := Vertical.make v

end

/-- What is written for a saddle connection, after the surface. The crossings, which are also written, are not read. -/
structure SaddleArchive where
  source : ℤ
  target : ℤ
  chain : List ℤ

/-- `save` for saddle connections, cereal.hpp:303-310. -/
def saveSaddle (size : ℕ) (c : Saddle) : SaddleArchive :=
  ⟨saveHalfEdge c.source, saveHalfEdge c.target, (List.range (size / 2)).map c.chain⟩

/-- `load` for saddle connections, cereal.hpp:312-323. For the chain see `loadChain`. -/
def loadSaddle (dbg : Bool) (size : ℕ) (a : SaddleArchive) : Except Err Saddle := do
  let source ← loadHalfEdge a.source
  let target ← loadHalfEdge a.target
  Saddle.make dbg size source target fun i => a.chain.getD i 0

/-- `save` for vertices, cereal.hpp:329-335. -/
def saveVertex (v : Finset HE) : List ℤ := (v.sort (· ≤ ·)).map saveHalfEdge

/-- `load` for vertices, cereal.hpp:337-342. -/
def loadVertex (a : List ℤ) : Except Err (Finset HE) := do
  let outgoing ← a.mapM loadHalfEdge
  return outgoing.toFinset

end Verif.Cereal
