import Verif.Model.SaddleConnections
import Verif.Model.QuadraticPolynomial

/-!
# The search for saddle connections (libflatsurf/src/saddle_connections_iterator.cc)

The iterator is a machine with an explicit stack. A chain is given by its coefficients. The comparisons of the vector of a
chain with a bound and its orientation first use an approximation that is computed from the approximations of the half
edges and then the exact vector; here, this is `Vec.ccw` and `Vec.gtBound` of the exact vector, which also make use of an
approximation that contains the exact value.
-/

namespace Verif

variable {T : Type} [CommRing T] [LinearOrder T] {K : Type} [Field K] [LinearOrder K] [IsStrictOrderedRing K]

namespace SaddleSearch

open SaddleConnections

/-- `State`, impl/saddle_connections_iterator.impl.hpp. The nine states that start with `START_AT_EDGE` are
`start s t` where `s` and `t` say whether the start and the end of the edge are outside the search radius, if known. -/
inductive Label
  | start (fromOutside toOutside : Option Bool)
  | outsideClockwise
  | outsideCounterclockwise
  | found
  | searchingFirst
  | searchingSecond
  | stop
  deriving DecidableEq

/-- `Move`, impl/saddle_connections_iterator.impl.hpp. -/
inductive Move
  | nextEdge
  | previousEdge
  | otherFace
  deriving DecidableEq

/-- `Boundary`, impl/saddle_connections_iterator.impl.hpp: a chain or a vector. -/
inductive Boundary (T : Type)
  | chain (c : ℕ → ℤ)
  | vector (v : Vec T)

namespace Boundary

/-- The vector of a boundary of the search sector. -/
def vec (S : FlatTri T) : Boundary T → Vec T
  | chain c => S.chainVector c
  | vector v => v

/-- Whether the boundary is given by a chain; then the boundary itself is not searched. -/
def isChain : Boundary T → Bool
  | chain _ => true
  | vector _ => false

end Boundary

/-- The fields of the iterator, impl/saddle_connections_iterator.impl.hpp. The sectors are those from `sector` to `end`.
The top of `state` and of `tmp`, and the front of `moves` come first. -/
structure Machine (T : Type) where
  sectors : List (Sector T)
  b0 : Boundary T
  b1 : Boundary T
  edge : HE
  edgeEnd : ℕ → ℤ
  state : List Label
  moves : List Move
  tmp : List (Boundary T)

/-- `apply`, saddle_connections_iterator.cc:468-484. -/
def applyMove (S : FlatTri T) : Move → HE × (ℕ → ℤ) → HE × (ℕ → ℤ)
  | .nextEdge, p => let x := S.tri.nextInFace p.1; (x, Chain.bump p.2 x)
  | .otherFace, p => (neg p.1, Chain.bump p.2 (neg p.1))
  | .previousEdge, p => (neg (S.tri.nextAtVertex p.1), Chain.bump p.2 (neg p.1))

/-- The loop of `applyMoves`, saddle_connections_iterator.cc:491-542. -/
def applyMovesLoop (S : FlatTri T) : ℕ → List Move → HE × (ℕ → ℤ) → HE × (ℕ → ℤ)
  | _, [], p => p
  | _, [m], p => applyMove S m p
  | 0, _, p => p
  | fuel + 1, m :: n :: ms, p =>
    match m, n with
    | .nextEdge, .nextEdge => applyMovesLoop S fuel (.previousEdge :: ms) p
    | .nextEdge, .previousEdge => applyMovesLoop S fuel ms p
    | .nextEdge, .otherFace => applyMovesLoop S fuel ms (neg (S.tri.nextInFace p.1), p.2)
    | .previousEdge, .nextEdge => applyMovesLoop S fuel ms p
    | .previousEdge, .previousEdge => applyMovesLoop S fuel (.nextEdge :: ms) p
    | .previousEdge, .otherFace => applyMovesLoop S fuel (.nextEdge :: .otherFace :: ms) (applyMove S .nextEdge p)
    | .otherFace, .nextEdge => applyMovesLoop S fuel (.previousEdge :: ms) (neg (S.tri.nextAtVertex (neg p.1)), p.2)
    | .otherFace, .previousEdge => applyMovesLoop S fuel ms (neg (S.tri.nextAtVertex (neg p.1)), p.2)
    | .otherFace, .otherFace => applyMovesLoop S fuel ms p

/-- `applyMoves`, saddle_connections_iterator.cc:486-544. Each iteration of the loop drops a move or replaces a
`GOTO_PREVIOUS_EDGE` at the front, so there is enough fuel for the loop to end. -/
def applyMoves (S : FlatTri T) (m : Machine T) : Machine T :=
  let p := applyMovesLoop S (2 * m.moves.length) m.moves (m.edge, m.edgeEnd)
  { m with edge := p.1, edgeEnd := p.2, moves := [] }

/-- What is fixed during a search, impl/saddle_connections.impl.hpp:61-64. -/
structure Params (T K : Type) [CommRing T] [LinearOrder T] [Field K] [LinearOrder K] [IsStrictOrderedRing K] where
  A : Option (Approx T K)
  dbg : Bool
  S : FlatTri T
  radius : Option Bound
  lower : Bound

/-- The change to the state in `pop`, saddle_connections_iterator.cc:131-142. -/
def settle (P : Params T K) (m : Machine T) (s t : Option Bool) : Option Bool × Option Bool × Machine T :=
  match s, t, P.radius with
  | none, none, some r =>
    let m := applyMoves P.S m
    (none, some (!Vec.ltBound P.A (P.S.chainVector m.edgeEnd) r), m)
  | _, _, _ => (s, t, m)

/-- Whether the edge is entirely outside the search radius, saddle_connections_iterator.cc:172-192. -/
def outside (P : Params T K) (m : Machine T) (r : Bound) : Bool :=
  let e := P.S.vec (neg m.edge)
  let p := P.S.chainVector m.edgeEnd
  Quadratic.positive ⟨e.x * e.x + e.y * e.y, 2 * p.x * e.x + 2 * p.y * e.y, p.x * p.x + p.y * p.y - (r.square : T)⟩

/-- `Classification`, impl/saddle_connections_iterator.impl.hpp. -/
inductive Classification
  | clockwise
  | counterclockwise
  | saddleConnection
  deriving DecidableEq

/-- `classifyHalfEdgeEnd`, saddle_connections_iterator.cc:546-567, after its call to `applyMoves`. -/
def classify (P : Params T K) (m : Machine T) : Classification :=
  let a := P.S.chainVector m.edgeEnd
  match Vec.ccw P.A (m.b0.vec P.S) a with
  | .clockwise => .clockwise
  | .collinear => if m.b0.isChain then .clockwise else .saddleConnection
  | .counterclockwise => match Vec.ccw P.A (m.b1.vec P.S) a with
    | .clockwise => .saddleConnection
    | _ => .counterclockwise

/-- The saddle connection case, saddle_connections_iterator.cc:238-271. -/
def saddle (P : Params T K) (m : Machine T) (s t : Option Bool) : Machine T × Bool :=
  let a := P.S.chainVector m.edgeEnd
  let beyond : Bool := match P.radius with
    | some r => Vec.gtBound P.A a r
    | none => false
  let state := .start s (some beyond) :: .searchingFirst :: .start (some beyond) t :: .searchingSecond :: m.state
  let b1 := if m.b1.isChain ∨ Vec.ccw P.A (m.b1.vec P.S) a ≠ .counterclockwise then .chain m.edgeEnd else m.b1
  let b0 := if m.b0.isChain = false ∧ Vec.ccw P.A (m.b0.vec P.S) a = .collinear then .chain m.edgeEnd else m.b0
  let m' := { m with b0, b1, tmp := m.b1 :: m.tmp }
  if beyond then ({ m' with state }, false)
  else ({ m' with state := .found :: state }, Vec.gtBound P.A a P.lower)

/-- Crossing an edge, saddle_connections_iterator.cc:196-275. -/
def crossEdge (P : Params T K) (m : Machine T) (s t : Option Bool) : Machine T × Bool :=
  let m := applyMoves P.S { m with moves := m.moves ++ [.otherFace] }
  if P.S.tri.boundary m.edge then ({ m with moves := m.moves ++ [.otherFace] }, false)
  else
    let m := applyMoves P.S { m with moves := m.moves ++ [.nextEdge] }
    match classify P m with
    | .clockwise =>
      let beyond : Bool := match P.radius with
        | some r => !Vec.ltBound P.A (P.S.chainVector m.edgeEnd) r
        | none => false
      ({ m with moves := m.moves ++ [.nextEdge], state := .start (some beyond) t :: .outsideClockwise :: m.state }, false)
    | .counterclockwise => ({ m with state := .start s none :: .outsideCounterclockwise :: m.state }, false)
    | .saddleConnection => saddle P m s t

/-- The part of `prepareSearch` before the loop, saddle_connections_iterator.cc:60-94. The result says whether there is no
need to run the loop. -/
def prepare (P : Params T K) (m : Machine T) : List (Sector T) → Except Err (Machine T × Bool)
  | [] => .ok ({ m with sectors := [] }, true)
  | s :: ss =>
    let e := s.source
    if P.dbg ∧ (m.state ≠ [] ∨ m.tmp.isEmpty = false ∨ m.moves ≠ []) then .error .logicError
    else if P.S.tri.boundary e then prepare P m ss
    else do
      let x := P.S.tri.nextInFace e
      let c := Chain.bump (fun _ => 0) e
      let c' := Chain.bump c x
      let v := P.S.vec e
      let contains ← contains P.A s e v
      let b0 := match s.sector with
        | some p => if contains then .chain c else .vector p.1
        | none => .chain c
      let b1 := match s.sector with
        | some p => .vector p.2
        | none => .chain c'
      let m := { sectors := s :: ss, b0, b1, edge := x, edgeEnd := c', state := .start none none :: .stop :: m.state,
                 moves := m.moves, tmp := m.tmp }
      let beyond : Bool := match P.radius with
        | some r => Vec.gtBound P.A v r
        | none => false
      return (m, !(beyond || !contains || !Vec.gtBound P.A v P.lower))

/-- One call of `increment`, saddle_connections_iterator.cc:148-318, and whether it returns `true`. When the search in a
sector is over, `increment` calls `prepareSearch` which might call `increment` until it returns `true`; here, the result is
then `false` and that loop is left to the caller. In debug builds, the assertions are checked. In release builds it is
undefined behavior if the stacks are empty. -/
def increment (P : Params T K) (m : Machine T) : Except Err (Machine T × Bool) :=
  if P.dbg ∧ (m.sectors.isEmpty ∨ Vec.ccw P.A (m.b0.vec P.S) (m.b1.vec P.S) = .clockwise) then .error .logicError
  else match m.state with
    | [] => .error (if P.dbg then .logicError else .undefined)
    | .stop :: state =>
      match m.sectors with
      | [] => .error .undefined
      | _ :: ss => prepare P (applyMoves P.S { m with state }) ss
    | .start s t :: state =>
      let (s, t, m) := settle P { m with state } s t
      if s = some true ∨ t = some true then
        match P.radius with
        | none => .error (if P.dbg then .logicError else .undefined)
        | some r =>
          let m := applyMoves P.S m
          if outside P m r then .ok (m, false) else .ok (crossEdge P m s t)
      else .ok (crossEdge P m s t)
    | .found :: state => .ok ({ m with state }, false)
    | .searchingFirst :: state =>
      match m.tmp with
      | [] => .error .undefined
      | b :: tmp =>
        let m := applyMoves P.S { m with state, b1 := b, tmp }
        let a := P.S.chainVector m.edgeEnd
        let b0 := if m.b0.isChain ∨ Vec.ccw P.A (m.b0.vec P.S) a ≠ .clockwise then .chain m.edgeEnd else m.b0
        .ok ({ m with tmp := m.b0 :: m.tmp, b0, moves := m.moves ++ [.nextEdge] }, false)
    | .searchingSecond :: state =>
      match m.tmp with
      | [] => .error .undefined
      | b :: tmp => .ok ({ m with state, b0 := b, tmp, moves := m.moves ++ [.nextEdge, .otherFace] }, false)
    | .outsideClockwise :: state => .ok ({ m with state, moves := m.moves ++ [.nextEdge, .otherFace] }, false)
    | .outsideCounterclockwise :: state =>
      .ok ({ m with state, moves := m.moves ++ [.nextEdge, .nextEdge, .otherFace] }, false)

/-- `while (!increment());`, saddle_connections_iterator.cc:95, 656. This is `none` if more than `fuel` calls are needed. -/
def advance (P : Params T K) : ℕ → Machine T → Option (Except Err (Machine T))
  | 0, _ => none
  | fuel + 1, m =>
    match increment P m with
    | .error err => some (.error err)
    | .ok (m, true) => some (.ok m)
    | .ok (m, false) => advance P fuel m

/-- The constructor of the iterator, saddle_connections_iterator.cc:47-57. -/
def start (P : Params T K) (fuel : ℕ) (sectors : List (Sector T)) : Option (Except Err (Machine T)) :=
  match prepare P ⟨[], .chain fun _ => 0, .chain fun _ => 0, 0, fun _ => 0, [], [], []⟩ sectors with
  | .error err => some (.error err)
  | .ok (m, true) => some (.ok m)
  | .ok (m, false) => advance P fuel m

/-- `dereference`, saddle_connections_iterator.cc:709-731. If the iterator is not at a saddle connection, an assertion fails
in debug builds; in release builds the result is the one of a previous call, which is not modelled. -/
def dereference (P : Params T K) (m : Machine T) : Except Err Saddle := do
  let c ← match m.sectors, m.state with
    | s :: _, .start none none :: _ => .ok (Saddle.ofHalfEdge s.source)
    | s :: _, .found :: _ => Saddle.make P.dbg P.S.tri.size s.source (P.S.tri.previousAtVertex (neg m.edge)) m.edgeEnd
    | _, _ => .error (if P.dbg then .logicError else .undefined)
  let beyond : Bool := match P.radius with
    | some r => Vec.gtBound P.A (P.S.saddleVector c) r
    | none => false
  if P.dbg ∧ (beyond ∨ ¬Vec.gtBound P.A (P.S.saddleVector c) P.lower) then
    throw .logicError
  return c

/-- Iterating with `for (auto it = begin; it != end; ++it)`. -/
def collect (P : Params T K) (fuel : ℕ) : ℕ → Machine T → Option (Except Err (List Saddle))
  | 0, _ => none
  | n + 1, m =>
    if m.sectors.isEmpty then some (.ok [])
    else match dereference P m with
      | .error err => some (.error err)
      | .ok c => (advance P fuel m).bind fun
        | .error err => some (.error err)
        | .ok m => (collect P fuel n m).map (·.map (c :: ·))

/-- `for (const auto& connection : connections)`. -/
def enumerate (A : Option (Approx T K)) (dbg : Bool) (S : FlatTri T) (st : State T) (fuel : ℕ) : Option (Except Err (List Saddle)) :=
  let P : Params T K := ⟨A, dbg, S, st.searchRadius, st.lowerBound⟩
  (start P fuel st.sectors).bind fun
    | .error err => some (.error err)
    | .ok m => collect P fuel fuel m

end SaddleSearch

end Verif
