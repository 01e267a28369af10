import Verif.Model.Triangulation
import Verif.Spec.Permutation

/-!
# What is expected of combinatorial triangulations

Stated in terms of the interface: `halfEdges`, `nextInFace`, `previousInFace`, `nextAtVertex`, `previousAtVertex`,
`boundary` and `vertices`.
-/

namespace Verif

/-- Triangulations which can be built with the interface: constructed from a permutation and a list of boundary half
edges, and modified by successful flips. -/
inductive Tri.Reachable (dbg : Bool) : Tri → Prop
  | make {v B T} (hv : v.Reachable) (h : Tri.make dbg v B = .ok T) : Reachable dbg T
  | flip {T e T'} (hT : Reachable dbg T) (h : T.flip dbg e = (T', .ok ())) : Reachable dbg T'

namespace Spec

open Function

/-- `T` is a triangulated oriented surface with boundary. -/
structure IsTriangulation (T : Tri) : Prop where
  /-- Half edges come in pairs. -/
  paired : ∀ e ∈ T.halfEdges, neg e ∈ T.halfEdges
  /-- The operations stay within the surface. -/
  closed : ∀ e ∈ T.halfEdges, T.nextInFace e ∈ T.halfEdges ∧ T.nextAtVertex e ∈ T.halfEdges
  /-- Next and previous in a face are inverse to each other. -/
  face_inv : ∀ e ∈ T.halfEdges, T.previousInFace (T.nextInFace e) = e ∧ T.nextInFace (T.previousInFace e) = e
  /-- Next and previous at a vertex are inverse to each other. -/
  vertex_inv : ∀ e ∈ T.halfEdges,
    T.previousAtVertex (T.nextAtVertex e) = e ∧ T.nextAtVertex (T.previousAtVertex e) = e
  /-- Faces are triangles. -/
  triangle : ∀ e ∈ T.halfEdges, T.boundary e = false →
    T.nextInFace (T.nextInFace (T.nextInFace e)) = e ∧ [e, T.nextInFace e, T.nextInFace (T.nextInFace e)].Nodup
  /-- A face with a non-boundary half edge does not contain boundary half edges. -/
  face_boundary : ∀ e ∈ T.halfEdges, T.boundary (T.nextInFace e) = T.boundary e
  /-- Turning around the source of a half edge moves to the other edge of the face at that corner. -/
  corner : ∀ e ∈ T.halfEdges, T.boundary e = false → T.nextAtVertex e = neg (T.previousInFace e)
  /-- Turning around a vertex, a boundary half edge is followed by the complement of a boundary half edge. -/
  corner_boundary : ∀ e ∈ T.halfEdges, T.boundary e = true → T.boundary (neg (T.nextAtVertex e)) = true

/-- The set `S` consists of the half edges met when turning around the source of `e`. -/
def IsOrbit (T : Tri) (e : HE) (S : Finset HE) : Prop := ∀ x, x ∈ S ↔ ∃ k, T.nextAtVertex^[k] e = x

/-- `vertices()` lists the orbits of `nextAtVertex`, each once. -/
def VerticesCorrect (T : Tri) : Prop :=
  T.vertexes.Nodup ∧ ∀ S, S ∈ T.vertexes ↔ ∃ e ∈ T.halfEdges, IsOrbit T e S

/-- `(x, y, z)` is a face. -/
def IsFace (T : Tri) (x y z : HE) : Prop :=
  x ∈ T.halfEdges ∧ T.boundary x = false ∧ T.nextInFace x = y ∧ T.nextInFace y = z ∧ T.nextInFace z = x

/-- `T` and `T'` cannot be told apart by asking for half edges, faces, boundary and vertices, except for the order in
which vertices are listed. -/
structure Same (T T' : Tri) : Prop where
  halfEdges : T'.halfEdges = T.halfEdges
  nextAtVertex : ∀ e, T'.nextAtVertex e = T.nextAtVertex e
  previousAtVertex : ∀ e, T'.previousAtVertex e = T.previousAtVertex e
  nextInFace : ∀ e, T'.nextInFace e = T.nextInFace e
  previousInFace : ∀ e, T'.previousInFace e = T.previousInFace e
  boundary : ∀ e, T'.boundary e = T.boundary e
  vertices : T'.vertexes.Perm T.vertexes

end Spec

end Verif
