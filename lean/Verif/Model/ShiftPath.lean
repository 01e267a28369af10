import Verif.Model.Path
import Verif.Model.SaddlePath

/-!
# Mapping paths through a shift

Model of libflatsurf/src/shift_deformation_relation.cc.
-/

namespace Verif

/-- `ShiftDeformationRelation`, impl/shift_deformation_relation.hpp:27-48. `OddHalfEdgeMap` stores a value for
each half edge, odd_half_edge_map.hpp:43-45. -/
structure ShiftRelation (T : Type) where
  domain : FlatTri T
  codomain : FlatTri T
  shifted : HE → List Saddle

namespace ShiftRelation

variable {T : Type} [CommRing T] [LinearOrder T] {K : Type} [Field K] [LinearOrder K] [IsStrictOrderedRing K]

/-- The deformation that `operator+` returns when no half edges collapse, flat_triangulation.cc:292-311: Then there are no half edges
that are identified so that each half edge is mapped to itself. -/
def ofShift (domain codomain : FlatTri T) : ShiftRelation T := ⟨domain, codomain, fun e => [Saddle.ofHalfEdge e]⟩

/-- `operator+=`, path.cc:307-312, with the assertion in `push_back`, path.cc:300-304. (That the loop visits the segments of the other path
is shown in C73.) -/
def push (dbg : Bool) (S : FlatTri T) : List Saddle → List Saddle → Except Err (List Saddle)
  | image, [] => .ok image
  | image, c :: l =>
    if dbg && (match image.getLast? with
      | none => false
      | some d => !S.connected d c) then .error .logicError
    else push dbg S (image ++ [c]) l

/-- The loop over the half edges that are crossed, shift_deformation_relation.cc:60-79. -/
def walk (dbg : Bool) (R : ShiftRelation T) : List HE → HE → List Saddle → Except Err (List Saddle)
  | [], _, image => .ok image
  | x :: l, face, image =>
    if dbg ∧ face = x then .error .logicError
    else if x = R.domain.tri.previousInFace face then walk dbg R l (neg x) image
    else if x = R.domain.tri.nextInFace face then do
      let image ← push dbg R.codomain image (R.shifted face)
      let image ← push dbg R.codomain image (R.shifted x)
      walk dbg R l (neg x) image
    else .error (if dbg then .logicError else .undefined)

/-- The body of the loop over the connections, shift_deformation_relation.cc:44-81. -/
def segment (A : Option (Approx T K)) (dbg : Bool) (R : ShiftRelation T) (fuel : ℕ) (c : Saddle) (image : List Saddle) :
    Option (Except Err (List Saddle)) :=
  (saddlePath A dbg R.domain fuel c).map fun targets => do
    let image ← walk dbg R ((← targets).map (·.halfEdge)) c.source image
    push dbg R.codomain image (R.shifted (neg c.target))

/-- `operator()(Path)`, shift_deformation_relation.cc:40-85. -/
def path (A : Option (Approx T K)) (dbg : Bool) (R : ShiftRelation T) (fuel : ℕ) : List Saddle → List Saddle → Option (Except Err (List Saddle))
  | [], image => some (.ok image)
  | c :: p, image => (segment A dbg R fuel c image).bind fun
    | .error err => some (.error err)
    | .ok image => path A dbg R fuel p image

/-- `operator()(Point)`, shift_deformation_relation.cc:87-99. -/
def point (_ : ShiftRelation T) (_ : Point T) : Except Err (Point T) := .error .logicError

/-- `section`, shift_deformation_relation.cc:106-109. -/
def inverse (_ : ShiftRelation T) : Except Err (ShiftRelation T) := .error .logicError

end ShiftRelation

end Verif
