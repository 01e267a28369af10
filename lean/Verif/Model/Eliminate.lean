import Verif.Model.Point
import Verif.Model.Saddle

/-!
# Eliminating marked points

Model of `FlatTriangulation::eliminateMarkedPoints` in libflatsurf/src/flat_triangulation.cc. The deformation by a shift, i.e.,
the operator `+`, is a parameter: it produces a surface and it maps half edges to paths. The assertions about the
deformation that is returned, flat_triangulation.cc:391-407, are left out. The deformation that is returned is given by the
half edges and the saddle connections that define it.
-/

namespace Verif.FlatTri

variable {T : Type} [CommRing T] [LinearOrder T]

/-- The loop over the half edges at a vertex, flat_triangulation.cc:338-345. -/
def eliminateAt (S : FlatTri T) (vertex : Finset HE) : Option HE → List HE → Except Err (Option HE)
  | collapse, [] => .ok collapse
  | collapse, outgoing :: rest => match S.tri.source (neg outgoing) with
    | none => .error .undefined
    | some neighbour =>
      if sameVertex neighbour vertex then eliminateAt S vertex collapse rest
      else if (match collapse with
        | none => false
        | some c => decide (Vec.dot (S.vec c) (S.vec c) < Vec.dot (S.vec outgoing) (S.vec outgoing)))
      then eliminateAt S vertex collapse rest
      else eliminateAt S vertex (some outgoing) rest

/-- Whether there are more half edges at the vertex than at the source of `collapse`, flat_triangulation.cc:335. -/
def eliminateSkips (S : FlatTri T) (vertex : Finset HE) : Option HE → Except Err Bool
  | none => .ok false
  | some c => match S.tri.source c with
    | none => .error .undefined
    | some w => .ok (decide (w.card < vertex.card))

/-- `atVertex`, flat_triangulation_combinatorics.cc:204-206. -/
def atVertex (S : FlatTri T) (vertex : Finset HE) : Except Err (List HE) :=
  match vertex.min with
  | ⊤ => .error .undefined
  | (e : ℕ) => match S.tri.vertices.cycle e with
    | none => .error .undefined
    | some l => .ok l

/-- The loop over the vertices, flat_triangulation.cc:321-348. -/
def eliminateChoice (fuel : ℕ) (S : FlatTri T) : Option HE → List (Finset HE) → Option (Except Err (Option HE))
  | collapse, [] => some (.ok collapse)
  | collapse, vertex :: rest => match S.angle fuel vertex with
    | none => none
    | some angle =>
      if angle ≠ 1 then eliminateChoice fuel S collapse rest
      else match S.eliminateSkips vertex collapse with
        | .error err => some (.error err)
        | .ok true => eliminateChoice fuel S collapse rest
        | .ok false => match S.atVertex vertex with
          | .error err => some (.error err)
          | .ok l => match S.eliminateAt vertex collapse l with
            | .error err => some (.error err)
            | .ok collapse => eliminateChoice fuel S collapse rest

/-- `delta`, flat_triangulation.cc:355-364. -/
def eliminateDelta (S : FlatTri T) (marked : Finset HE) (collapse : HE) (he : HE) : Vec T :=
  if S.isSource marked he && S.isSource marked (neg he) then 0
  else if S.isSource marked he then -S.vec collapse
  else if S.isSource marked (neg he) then S.vec collapse
  else 0

/-- The loop that searches for a half edge that determines the deformation, flat_triangulation.cc:377-389 and 412. In a release
build, dereferencing a path that does not exist, or the first connection of an empty path, is undefined. -/
def eliminateSearch (dbg : Bool) (S : FlatTri T) (marked : Finset HE) (image : HE → Option (List Saddle)) :
    List HE → Except Err (HE × Saddle)
  | [] => .error (if dbg then .logicError else .undefined)
  | preimage :: rest =>
    if S.isSource marked preimage || S.isSource marked (neg preimage) then eliminateSearch dbg S marked image rest
    else match image preimage with
      | none => .error (if dbg then .logicError else .undefined)
      | some [] => .error (if dbg then .logicError else .undefined)
      | some [connection] => .ok (preimage, connection)
      | some _ => eliminateSearch dbg S marked image rest

/-- `eliminateMarkedPoints`, flat_triangulation.cc:317-413. -/
def eliminateMarkedPoints (dbg : Bool)
    (shift : FlatTri T → (HE → Vec T) → Option (Except Err (FlatTri T × (HE → Option (List Saddle))))) :
    ℕ → FlatTri T → Option (Except Err (FlatTri T × List (HE × Saddle)))
  | 0, _ => none
  | fuel + 1, S => match S.eliminateChoice (fuel + 1) none S.tri.vertexes with
    | none => none
    | some (.error err) => some (.error err)
    | some (.ok none) => some (.ok (S, []))
    | some (.ok (some collapse)) => match S.tri.source collapse with
      | none => some (.error .undefined)
      | some marked => match shift S (S.eliminateDelta marked collapse) with
        | none => none
        | some (.error err) => some (.error err)
        | some (.ok (codomain, image)) =>
          if dbg && decide (S.tri.vertexes.length ≤ codomain.tri.vertexes.length) then some (.error .logicError)
          else match eliminateSearch dbg S marked image S.tri.halfEdges with
            | .error err => some (.error err)
            | .ok step => match eliminateMarkedPoints dbg shift fuel codomain with
              | none => none
              | some (.error err) => some (.error err)
              | some (.ok (S', steps)) => some (.ok (S', step :: steps))

end Verif.FlatTri
