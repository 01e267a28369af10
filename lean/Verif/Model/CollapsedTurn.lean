import Verif.Model.Collapsed
import Verif.Model.Point

/-!
# Turning at the vertices of collapsed surfaces

Model of libflatsurf/src/flat_triangulation_collapsed.cc, continued.
-/

namespace Verif.Collapsed

variable {T : Type} [CommRing T] [LinearOrder T]
variable {K : Type*} [Field K] [LinearOrder K] [IsStrictOrderedRing K]

/-- `inSector`, flat_triangulation_collapsed.cc:95-98. -/
def inSector (A : Option (Approx T K)) (C : Collapsed T) (sector : HE) (vector : Vec T) : Bool :=
  decide (Vec.ccw A (C.fromHalfEdge sector) vector ≠ .clockwise) &&
  decide (Vec.ccw A (-C.fromHalfEdge (C.tri.previousInFace sector)) vector = .clockwise)

/-- The loop in `turn`, flat_triangulation_collapsed.cc:128-132; `none` if it has not ended after `fuel` rounds. -/
def turnLoop (C : Collapsed T) (target : HE) : ℕ → HE → Option (List (Vec T))
  | 0, _ => none
  | fuel + 1, e => if e = target then some [] else (turnLoop C target fuel (C.tri.previousAtVertex e)).map (C.cross e ++ ·)

/-- `turn`, flat_triangulation_collapsed.cc:122-137. The assertion in line 134 is about saddle connections whose sources are not part of
this model and omitted. -/
def turn (C : Collapsed T) (fuel : ℕ) (e target : HE) : Option (Except Err (List (Vec T))) :=
  match C.tri.source e, C.tri.source target with
  | some v, some w => if FlatTri.sameVertex v w then (turnLoop C target fuel e).map .ok else some (.error .invalidArgument)
  | _, _ => some (.error .undefined)

end Verif.Collapsed
