import Verif.Model.FlatTriangulation
import Verif.Model.Saddle

/-!
# Comparing and hashing surfaces
-/

namespace Verif

/-- `std::hash<Permutation<HalfEdge>>`, permutation.cc:297-304. The hash of a half edge is its index, half_edge.cc:76. -/
def Perm.hash (p : Perm) : ℕ := p.domain.foldl hashCombine 0

/-- `std::hash<FlatTriangulationCombinatorial>`, flat_triangulation_combinatorial.cc:398-400. -/
def Tri.hash (T : Tri) : ℕ := T.vertices.hash

namespace FlatTri

variable {T : Type} [DecidableEq T]

/-- `operator==`, flat_triangulation.cc:878-921. The ring in which a coordinate has been defined (`parent()` or
`module()`) is given by `ring`. Surfaces that share their state are in particular equal in the other sense. -/
def beq {R : Type} [DecidableEq R] (ring : T → R) (S U : FlatTri T) : Bool :=
  S.tri.beq U.tri && S.tri.edges.all fun e =>
    decide (ring (S.vec e).x = ring (U.vec e).x) && decide (ring (S.vec e).y = ring (U.vec e).y) &&
      (decide ((S.vec e).x = (U.vec e).x) && decide ((S.vec e).y = (U.vec e).y))

/-- `std::hash<FlatTriangulation>`, flat_triangulation.cc:1230-1238, with `h` for the hash of a vector. -/
def hash (h : Vec T → ℕ) (S : FlatTri T) : ℕ :=
  S.tri.edges.foldl (fun r e => hashCombine r (h (S.vec e))) S.tri.vertices.hash

end FlatTri

end Verif
