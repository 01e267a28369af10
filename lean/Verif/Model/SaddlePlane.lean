import Verif.Model.SaddleConnect
import Verif.Model.Tighten

/-!
# Saddle connections in planes

The functions that search for a saddle connection in a plane, a half plane, or clockwise or counterclockwise from a direction,
saddle_connection.cc:163-206. A `Vertical` is given by its vector.
-/

namespace Verif.Saddle

open Tighten

variable {T : Type} [CommRing T] [LinearOrder T] {K : Type} [Field K] [LinearOrder K] [IsStrictOrderedRing K]

/-- `inHalfPlane`, saddle_connection.cc:163-166. -/
def inHalfPlane (A : Option (Approx T K)) (dbg : Bool) (upper : Vec T → Bound) (fuel : ℕ) (S : FlatTri T) (side : HE) (vertical vector : Vec T) :
    Option (Except Err Saddle) :=
  andThen (S.sectorInHalfPlane A fuel side vertical vector) fun sector => inSector A dbg upper fuel S sector vector

/-- `inPlane(surface, plane, direction)`, saddle_connection.cc:168-171. -/
def inPlaneDirection (A : Option (Approx T K)) (dbg : Bool) (sort : List Saddle → List Saddle) (upper : Vec T → Bound) (fuel : ℕ)
    (S : FlatTri T) (plane : HE) (direction : Vec T) : Option (Except Err Saddle) :=
  andThen (S.sectorInPlane A fuel plane direction) fun sector => inSectorDirection A dbg sort upper fuel S sector direction

/-- `inPlane(surface, plane, vector)`, saddle_connection.cc:173-176. -/
def inPlane (A : Option (Approx T K)) (dbg : Bool) (upper : Vec T → Bound) (fuel : ℕ) (S : FlatTri T) (plane : HE) (vector : Vec T) :
    Option (Except Err Saddle) :=
  andThen (S.sectorInPlane A fuel plane vector) fun sector => inSector A dbg upper fuel S sector vector

/-- `inPlane(surface, sourcePlane, targetPlane, chain)`, saddle_connection.cc:178-183. -/
def inPlanes (A : Option (Approx T K)) (dbg : Bool) (fuel : ℕ) (S : FlatTri T) (sourcePlane targetPlane : HE) (chain : ℕ → ℤ) :
    Option (Except Err Saddle) :=
  let vector := S.chainVector chain
  andThen (S.sectorInPlane A fuel sourcePlane vector) fun source =>
  andThen (S.sectorInPlane A fuel targetPlane (-vector)) fun target => some (make dbg S.tri.size source target chain)

/-- `clockwise`, saddle_connection.cc:185-188. -/
def clockwise (A : Option (Approx T K)) (dbg : Bool) (upper : Vec T → Bound) (fuel : ℕ) (S : FlatTri T) (clockwiseFrom : Saddle)
    (vector : Vec T) : Option (Except Err Saddle) :=
  andThen (S.sectorFrom A fuel clockwiseFrom.source (S.saddleVector clockwiseFrom) .clockwise vector true) fun sector =>
  inSector A dbg upper fuel S sector vector

/-- `counterclockwise(surface, source, target, chain)`, saddle_connection.cc:190-195. -/
def counterclockwiseChain (A : Option (Approx T K)) (dbg : Bool) (fuel : ℕ) (S : FlatTri T) (source target : HE) (chain : ℕ → ℤ) :
    Option (Except Err Saddle) :=
  let vector := S.chainVector chain
  andThen (S.sector A fuel source .counterclockwise vector false) fun source =>
  andThen (S.sector A fuel target .counterclockwise (-vector) false) fun target => some (make dbg S.tri.size source target chain)

/-- `counterclockwise(surface, source, direction)`, saddle_connection.cc:197-200. -/
def counterclockwise (A : Option (Approx T K)) (dbg : Bool) (sort : List Saddle → List Saddle) (upper : Vec T → Bound) (fuel : ℕ)
    (S : FlatTri T) (source : Saddle) (direction : Vec T) : Option (Except Err Saddle) :=
  andThen (S.sectorFrom A fuel source.source (S.saddleVector source) .counterclockwise direction false) fun sector =>
  inSectorDirection A dbg sort upper fuel S sector direction

/-- `alongVertical`, saddle_connection.cc:202-207. -/
def alongVertical (A : Option (Approx T K)) (dbg : Bool) (sort : List Saddle → List Saddle) (upper : Vec T → Bound) (fuel : ℕ)
    (S : FlatTri T) (direction : Vec T) (plane : HE) : Option (Except Err Saddle) :=
  if !S.inHalfPlane A plane direction then some (.error .invalidArgument)
  else andThen (S.sectorInPlane A fuel plane direction) fun sector => inSectorDirection A dbg sort upper fuel S sector direction

end Verif.Saddle
