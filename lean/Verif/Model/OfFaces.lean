import Verif.Model.Slit

/-!
# Construction from faces

Model of `FlatTriangulationCombinatorial(const std::vector<std::tuple<HalfEdge, HalfEdge, HalfEdge>>&)`,
`libflatsurf/src/flat_triangulation_combinatorial.cc:56-103`.
-/

namespace Verif.Tri

open Verif Function

/-- The local variables of the constructor, flat_triangulation_combinatorial.cc:58-60. Maps are partial functions. -/
structure Rec where
  initial : HE → Option HE
  final : HE → Option HE
  vertexPermutation : HE → Option HE
  nonboundary : List HE

/-- `record`, flat_triangulation_combinatorial.cc:62-74. All `operator[]` find an entry. -/
def Rec.record (dbg : Bool) (r : Rec) (a b : HE) : Except Err Rec :=
  if dbg ∧ (r.vertexPermutation a).isSome then .error .logicError
  else
    let initial := if (r.initial a).isSome then r.initial else update r.initial a (some a)
    let final := if (r.final b).isSome then r.final else update r.final b (some b)
    let s := (initial a).getD a
    let final' := update final s (final b)
    let t := (final' b).getD b
    .ok { initial := update initial t (some s)
          final := final'
          vertexPermutation := update r.vertexPermutation a (some b)
          nonboundary := r.nonboundary ++ [a] }

/-- The body of the loop in flat_triangulation_combinatorial.cc:76-80. -/
def Rec.recordFace (dbg : Bool) (r : Rec) (f : HE × HE × HE) : Except Err Rec := do
  let r ← r.record dbg f.1 (neg f.2.2)
  let r ← r.record dbg f.2.1 (neg f.1)
  r.record dbg f.2.2 (neg f.2.1)

/-- flat_triangulation_combinatorial.cc:82-86. -/
def Rec.boundary (r : Rec) : List HE := (r.nonboundary.filter fun h => neg h ∉ r.nonboundary).map neg

/-- The body of the loop in flat_triangulation_combinatorial.cc:88-94; `at` throws if there is no entry. The assertions
are not modelled, they always hold when no half edge is used twice. -/
def Rec.close (r : Rec) (v : HE → Option HE) (h : HE) : Except Err (HE → Option HE) :=
  match r.initial h with
  | none => .error .logicError
  | some s => .ok (update v h (some s))

/-- All keys of the map are smaller than this. -/
def keyBound (l : List (HE × HE × HE)) : ℕ := (l.map fun f => max (max f.1 f.2.1) f.2.2).foldr max 0 + 2

/-- `FlatTriangulationCombinatorial(faces)`, flat_triangulation_combinatorial.cc:56-103. -/
def ofFaces (dbg : Bool) (l : List (HE × HE × HE)) : Except Err Tri := do
  let r ← l.foldlM (Rec.recordFace dbg) ⟨fun _ => none, fun _ => none, fun _ => none, []⟩
  let v ← r.boundary.foldlM r.close r.vertexPermutation
  let vertices ← Perm.ofPairs (mapEntries v (keyBound l))
  let T ← make dbg vertices r.boundary
  if dbg ∧ ∃ f ∈ l, ¬ (T.faces.fwd f.1 = f.2.1 ∧ T.faces.fwd f.2.1 = f.2.2 ∧ T.faces.fwd f.2.2 = f.1) then
    throw .logicError
  return T

end Verif.Tri
