import Verif.Model.InsertAt
import Verif.Model.Point

/-!
# Inserting a vertex at a point

Model of `FlatTriangulation::insert` in libflatsurf/src/flat_triangulation.cc.
-/

namespace Verif.FlatTri

variable {T : Type} [CommRing T] [LinearOrder T]
variable {K : Type} [Field K] [LinearOrder K] [IsStrictOrderedRing K]

/-- The half edge that is passed on to `insertAt`, flat_triangulation.cc:639-646. -/
def insertSide (p : Point T) : HE :=
  match edgeOf p with
  | some e => e.positive
  | none => p.face

/-- `insert`, flat_triangulation.cc:635-648; `div` is the division used to compute Cartesian coordinates. -/
def insert (A : Option (Approx T K)) (dbg : Bool) (div : T → T → Option T) (fuel : ℕ) (S : FlatTri T) (p : Point T) :
    Option (Except Err (Insertion T)) :=
  if (S.vertexOf p).isSome then some (.error .invalidArgument)
  else match S.pointVector div p (insertSide p) with
    | .error err => some (.error err)
    | .ok v => S.insertAt A dbg fuel (insertSide p) v

end Verif.FlatTri
