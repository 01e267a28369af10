import Verif.Model.Tighten

/-!
# Detected connections of flow components

The part of `FlowComponent::decompose` that turns a connection which has been detected by intervalxt into a saddle connection of the
surface, flow_component.cc:74-242. The connections in `step.equivalent` are given by their saddle connections, with a flag that says
whether they are vertical; they are provided by intervalxt, which is not modelled.
-/

namespace Verif.FlowDetect

open Verif Tighten

/-- `SECTOR`, flow_component.cc:122-131. -/
inductive Compass where
  | north | northWest | west | southWest | south | southEast | east | northEast
deriving DecidableEq, Repr

variable {T : Type} [CommRing T] [LinearOrder T]
variable {K : Type} [Field K] [LinearOrder K] [IsStrictOrderedRing K]

/-- `classify`, flow_component.cc:133-163. -/
def classify (A : Option (Approx T K)) (dbg : Bool) (v w : Vec T) : Except Err Compass :=
  match Vec.ccw A v w, Vec.orientation A v w with
  | .counterclockwise, .opposite => .ok .southWest
  | .counterclockwise, .same => .ok .northWest
  | .counterclockwise, .orthogonal => .ok .west
  | .clockwise, .opposite => .ok .southEast
  | .clockwise, .same => .ok .northEast
  | .clockwise, .orthogonal => .ok .east
  | .collinear, .opposite => .ok .south
  | .collinear, .same => .ok .north
  | .collinear, .orthogonal => .error (if dbg then .logicError else .undefined)

/-- The loops in flow_component.cc:173-185, 198-209 and 211-222: go on until the half edge points in one of the directions in `stop`. -/
def walk (A : Option (Approx T K)) (dbg : Bool) (S : FlatTri T) (v : Vec T) (step : HE → HE) (stop : List Compass) :
    ℕ → HE → Option (Except Err HE)
  | 0, _ => none
  | fuel + 1, e =>
    match classify A dbg v (S.vec e) with
    | .error err => some (.error err)
    | .ok c => if c ∈ stop then some (.ok e) else walk A dbg S v step stop fuel (step e)

/-- `source`, flow_component.cc:170-190. -/
def source (A : Option (Approx T K)) (dbg : Bool) (fuel : ℕ) (S : FlatTri T) (v vector : Vec T) (clockwiseFrom : HE) :
    Option (Except Err HE) :=
  andThen (walk A dbg S v S.tri.previousAtVertex [.north, .northEast, .east, .southEast] fuel clockwiseFrom) fun ret =>
  andThen (assert dbg (S.inSector A ret vector)) fun _ => some (.ok ret)

/-- `target`, flow_component.cc:195-229. -/
def target (A : Option (Approx T K)) (dbg : Bool) (fuel : ℕ) (S : FlatTri T) (v vector : Vec T) (counterclockwiseTo : HE) :
    Option (Except Err HE) :=
  andThen (walk A dbg S v S.tri.nextAtVertex [.northWest, .west, .southWest] fuel counterclockwiseTo) fun ret =>
  andThen (walk A dbg S v S.tri.nextAtVertex [.southEast, .east, .northEast] fuel ret) fun ret =>
  let ret := S.tri.previousAtVertex ret
  andThen (assert dbg (S.inSector A ret (-vector))) fun _ => some (.ok ret)

/-- The chain of the new connection, flow_component.cc:81-97. -/
def total (equivalent : List (Bool × Saddle)) : ℕ → ℤ :=
  equivalent.foldl (fun chain c => if c.1 then fun i => chain i + c.2.chain i else fun i => chain i - c.2.chain i) fun _ => 0

/-- `clockwiseFrom`, flow_component.cc:105-109, for the first connection. -/
def first (c : Bool × Saddle) : Saddle := if c.1 then c.2 else c.2.neg

/-- `counterclockwiseTo`, flow_component.cc:114-118, for the last connection. -/
def last (c : Bool × Saddle) : Saddle := if c.1 then c.2.neg else c.2

/-- The saddle connection that is recorded for a detected connection, flow_component.cc:81-241. -/
def detect (A : Option (Approx T K)) (dbg : Bool) (fuel : ℕ) (S : FlatTri T) (v : Vec T) (equivalent : List (Bool × Saddle)) :
    Option (Except Err Saddle) :=
  let chain := total equivalent
  let vector := S.chainVector chain
  andThen (assert dbg (!(List.range (S.tri.size / 2)).all fun i => decide (chain i = 0))) fun _ =>
  andThen (assert dbg (decide (Vec.ccw A v vector = .collinear))) fun _ =>
  andThen (assert dbg (decide (Vec.orientation A v vector = .same))) fun _ =>
  match equivalent.head?, equivalent.getLast? with
  | some c, some d =>
    let clockwiseFrom := first c
    let counterclockwiseTo := last d
    andThen (assert dbg (decide (Vec.ccw A (S.saddleVector clockwiseFrom) vector ≠ .counterclockwise))) fun _ =>
    andThen (source A dbg fuel S v vector clockwiseFrom.source) fun source =>
    andThen (target A dbg fuel S v vector counterclockwiseTo.source) fun target =>
    andThen (some (Saddle.make dbg S.tri.size source target chain)) fun connection =>
    andThen (assert dbg (decide (Vec.ccw A v (S.saddleVector connection) = .collinear))) fun _ =>
    andThen (assert dbg (decide (Vec.orientation A v (S.saddleVector connection) = .same))) fun _ =>
    andThen (assert dbg (decide (connection.source = source ∧ connection.target = target))) fun _ =>
    andThen (assert dbg (decide (Vec.ccw A (S.saddleVector clockwiseFrom) (S.saddleVector connection) = .clockwise ∨
      Vec.ccw A (S.saddleVector clockwiseFrom) (S.saddleVector connection) = .collinear ∧
        Vec.orientation A (S.saddleVector clockwiseFrom) (S.saddleVector connection) = .opposite))) fun _ =>
    some (.ok connection)
  | _, _ => some (.error .undefined)

end Verif.FlowDetect
