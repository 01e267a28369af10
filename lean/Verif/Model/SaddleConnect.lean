import Verif.Model.ByLength

/-!
# Searching for a single saddle connection (libflatsurf/src/saddle_connection.cc)
-/

namespace Verif

open SaddleConnections

variable {T : Type} [CommRing T] [LinearOrder T] {K : Type} [Field K] [LinearOrder K] [IsStrictOrderedRing K]

namespace Saddle

/-- `inSector(surface, source, vector)`, saddle_connection.cc:134-148. `Bound::upper`, bound.cc:434-449, is `upper`. It is `none` if a
search needs more than `fuel` steps. -/
def inSector (A : Option (Approx T K)) (dbg : Bool) (upper : Vec T → Bound) (fuel : ℕ) (S : FlatTri T) (source : HE) (vector : Vec T) :
    Option (Except Err Saddle) :=
  if !S.inSector A source vector then some (.error .invalidArgument)
  else
    match run A dbg S fuel (SaddleConnections.make S) [.bound (upper vector), .halfEdge source, .vectors vector vector] with
    | none => none
    | some (.error err) => some (.error err)
    | some (.ok construction) =>
      let P : SaddleSearch.Params T K := ⟨A, dbg, S, construction.searchRadius, construction.lowerBound⟩
      match SaddleSearch.start P fuel construction.sectors with
      | none => none
      | some (.error err) => some (.error err)
      | some (.ok ret) => if ret.sectors.isEmpty then some (.error .invalidArgument) else some (SaddleSearch.dereference P ret)

/-- `inSector(surface, source, direction)`, saddle_connection.cc:150-162. The direction is given by its vector, `Vertical::vertical`.
`sort` and `upper` are as in `ByLength.Params`. -/
def inSectorDirection (A : Option (Approx T K)) (dbg : Bool) (sort : List Saddle → List Saddle) (upper : Vec T → Bound) (fuel : ℕ)
    (S : FlatTri T) (source : HE) (direction : Vec T) : Option (Except Err Saddle) :=
  if !S.inSector A source direction then some (.error .invalidArgument)
  else
    match run A dbg S fuel (SaddleConnections.make S) [.halfEdge source, .vectors direction direction] with
    | none => none
    | some (.error err) => some (.error err)
    | some (.ok construction) =>
      let P : ByLength.Params T K := ⟨A, dbg, S, construction, sort, upper⟩
      match ByLength.begin P fuel with
      | none => none
      | some (.error err) => some (.error err)
      | some (.ok ret) => some (ByLength.dereference P ret)

end Saddle

end Verif
