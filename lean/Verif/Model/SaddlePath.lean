import Verif.Model.SaddleSearch
import Verif.Model.HalfEdgeIntersection

/-!
# Following a direction with the search for saddle connections

Model of `skipSector` and `incrementWithIntersections` in libflatsurf/src/saddle_connections_iterator.cc and of `path` and
`crossings` in libflatsurf/src/saddle_connection.cc.
-/

namespace Verif

variable {T : Type} [CommRing T] [LinearOrder T] {K : Type} [Field K] [LinearOrder K] [IsStrictOrderedRing K]

/-- `-ccw`, orientation.cc:40. -/
def CCW.neg : CCW → CCW
  | .clockwise => .counterclockwise
  | .collinear => .collinear
  | .counterclockwise => .clockwise

namespace SaddleSearch

open SaddleConnections

/-- Whether a state is one of those that start with `START_AT_EDGE`. -/
def Label.isStart : Label → Bool
  | .start _ _ => true
  | _ => false

/-- The states above the first `SADDLE_CONNECTION_FOUND_SEARCHING_SECOND` from the top, without the lowest one of them if it
is a `START_AT_EDGE`, saddle_connections_iterator.cc:361-390. It is undefined behavior to look for the top of an empty stack;
this is `none` here. -/
def dropSecond : List Label → Option (List Label)
  | [] => none
  | [_] => none
  | a :: b :: l =>
    if b = .searchingSecond ∧ a ≠ .searchingSecond then some (if a.isStart then b :: l else a :: b :: l)
    else if a = .searchingSecond then none
    else (dropSecond (b :: l)).map (a :: ·)

/-- `skipSector`, saddle_connections_iterator.cc:328-411. The `assert` in 401 is not modelled. -/
def skipSector (P : Params T K) (m : Machine T) (sector : CCW) : Except Err (Machine T) :=
  if P.dbg ∧ sector = .collinear then .error .invalidArgument
  else match m.state with
    | [] => .error (if P.dbg then .logicError else .undefined)
    | .found :: state =>
      match sector with
      | .clockwise =>
        let state := match state with
          | .start _ _ :: l => l
          | l => l
        if P.dbg ∧ state.head? ≠ some .searchingFirst then .error .logicError
        else .ok { m with state }
      | .counterclockwise =>
        match dropSecond state with
        | none => .error .undefined
        | some state => .ok { m with state }
      | .collinear => .ok { m with state }
    | .start _ _ :: state =>
      if m.state.length = 2 then
        if sector = .counterclockwise then .ok { m with state } else .ok m
      else .error .logicError
    | _ => .error .logicError

/-- One call of `increment`, saddle_connections_iterator.cc:148-318, including the loop in 95 that was left out in
`increment`. -/
def incrementFull (P : Params T K) (fuel : ℕ) (m : Machine T) : Option (Except Err (Machine T)) :=
  match m.state with
  | .stop :: _ =>
    match increment P m with
    | .error err => some (.error err)
    | .ok (m, true) => some (.ok m)
    | .ok (m, false) => advance P fuel m
  | _ => some ((increment P m).map Prod.fst)

/-- The loop of `incrementWithIntersections`, saddle_connections_iterator.cc:680-706. -/
def intersectionLoop (P : Params T K) : ℕ → Machine T → Option (Except Err (Machine T × Option ((ℕ → ℤ) × HE)))
  | 0, _ => none
  | fuel + 1, m =>
    if m.sectors.isEmpty then some (.ok (m, none))
    else match m.state with
      | [] => some (.error .undefined)
      | .start _ _ :: _ =>
        let m := applyMoves P.S m
        let crossing := m.edge
        let base := Chain.bump m.edgeEnd (neg crossing)
        some ((increment P m).map fun r => (r.1, some (base, crossing)))
      | .found :: _ => some (.ok (m, none))
      | _ => (incrementFull P fuel m).bind fun
        | .error err => some (.error err)
        | .ok m => intersectionLoop P fuel m

/-- `incrementWithIntersections`, saddle_connections_iterator.cc:675-707. -/
def incrementWithIntersections (P : Params T K) (fuel : ℕ) (m : Machine T) :
    Option (Except Err (Machine T × Option ((ℕ → ℤ) × HE))) :=
  if P.dbg ∧ m.sectors.isEmpty then some (.error .logicError) else intersectionLoop P fuel m

/-- The inner loop of `path`, saddle_connection.cc:273-279. -/
def gather (P : Params T K) (F : ℕ) : ℕ → Machine T → Option (Except Err (Machine T × List ((ℕ → ℤ) × HE)))
  | 0, _ => none
  | fuel + 1, m => (incrementWithIntersections P F m).bind fun
    | .error err => some (.error err)
    | .ok (m, none) => some (.ok (m, []))
    | .ok (m, some i) => (gather P F fuel m).map (·.map fun r => (r.1, i :: r.2))

/-- `operator==`, saddle_connection.cc:105-111, for saddle connections of the same surface, with the assertion. -/
def equal (P : Params T K) (c d : Saddle) : Except Err Bool :=
  if P.dbg ∧ P.S.saddleEq c d ∧ c.target ≠ d.target then .error .logicError else .ok (P.S.saddleEq c d)

/-- The loop of `path`, saddle_connection.cc:269-280. The result also contains the saddle connection where the loop ended.
-/
def pathLoop (P : Params T K) (c : Saddle) (F : ℕ) : ℕ → Machine T → Option (Except Err (Saddle × List ((ℕ → ℤ) × HE)))
  | 0, _ => none
  | fuel + 1, m =>
    match dereference P m with
    | .error err => some (.error err)
    | .ok d =>
      match equal P d c with
      | .error err => some (.error err)
      | .ok true => some (.ok (d, []))
      | .ok false =>
        let ccw := Vec.ccw P.A (P.S.saddleVector d) (P.S.saddleVector c)
        if P.dbg ∧ ccw = .collinear then some (.error .logicError)
        else match skipSector P m ccw.neg with
          | .error err => some (.error err)
          | .ok m => (gather P F F m).bind fun
            | .error err => some (.error err)
            | .ok (m, l) => (pathLoop P c F fuel m).map (·.map fun r => (r.1, l ++ r.2))

end SaddleSearch

/-- `path`, saddle_connection.cc:261-285. -/
def saddlePath (A : Option (Approx T K)) (dbg : Bool) (S : FlatTri T) (fuel : ℕ) (c : Saddle) :
    Option (Except Err (List (HalfEdgeIntersection T))) :=
  let st := SaddleConnections.sectorHalfEdge (SaddleConnections.make S) c.source
  let P : SaddleSearch.Params T K := ⟨A, dbg, S, st.searchRadius, st.lowerBound⟩
  (SaddleSearch.start P fuel st.sectors).bind fun
    | .error err => some (.error err)
    | .ok m => (SaddleSearch.pathLoop P c fuel fuel m).map fun r => r.bind fun r =>
      if dbg ∧ r.1.target ≠ c.target then .error .logicError
      else .ok (r.2.map fun i => HalfEdgeIntersection.make S (-S.chainVector i.1) i.2 (S.saddleVector c))

/-- `crossings`, saddle_connection.cc:251-259. -/
def saddleCrossings (A : Option (Approx T K)) (dbg : Bool) (S : FlatTri T) (fuel : ℕ) (c : Saddle) : Option (Except Err (List HE)) :=
  (saddlePath A dbg S fuel c).map (·.map fun l => l.map (·.halfEdge))

end Verif
