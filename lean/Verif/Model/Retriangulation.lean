import Verif.Model.SaddleAngle

/-!
# Retriangulations

Model of `operator()(Path)` in libflatsurf/src/generic_retriangulation_deformation_relation.cc.
-/

namespace Verif

namespace FlatTri

variable {T : Type} [CommRing T] [LinearOrder T]
variable {K : Type*} [Field K] [LinearOrder K] [IsStrictOrderedRing K] (A : Option (Approx T K))

/-- `angle(Vertex::source(e)) == 1` in generic_retriangulation_deformation_relation.cc:89. -/
def isMarked (S : FlatTri T) (fuel : ℕ) (e : HE) : Option (Except Err Bool) :=
  match S.tri.source e with
  | none => some (.error .undefined)
  | some v => (S.angle fuel v).map fun angle => .ok (decide (angle = 1))

/-- The loop in `operator()(Path)`, generic_retriangulation_deformation_relation.cc:87-96, with the variables `target`,
`vector` and `pending`. Returns `target` and `vector` after the loop. -/
def gather (S : FlatTri T) (n : ℕ) : ℕ → HE → Vec T → List Saddle → Option (Except Err (HE × Vec T))
  | _, target, vector, [] => some (.ok (target, vector))
  | 0, _, _, _ :: _ => none
  | fuel + 1, target, vector, s :: pending =>
    let vector' := S.saddleVector s
    if Vec.ccw A vector vector' = .collinear ∧ Vec.orientation A vector vector' = .same then
      match S.isMarked n s.source with
      | none => none
      | some (.error e) => some (.error e)
      | some (.ok true) => gather S n fuel s.target (vector + vector') pending
      | some (.ok false) => gather S n fuel target vector (s :: pending)
    else gather S n fuel target vector (s :: pending)

/-- `operator()(Path)`, generic_retriangulation_deformation_relation.cc:74-107, on the domain `S`. The image of a single
vector, lines 169-203, is given by `single`. (Since `pending` is empty after the loop, its image is the empty path.) -/
def retriangulatePath (S : FlatTri T) (single : HE → HE → Vec T → Option (Except Err (Option (List Saddle)))) (fuel : ℕ) :
    List Saddle → Option (Except Err (Option (List Saddle)))
  | [] => some (.ok (some []))
  | s :: pending =>
    match gather A S fuel fuel s.target (S.saddleVector s) pending with
    | none => none
    | some (.error e) => some (.error e)
    | some (.ok (target, vector)) => single s.source target vector

end FlatTri

end Verif
