import Verif.Model.Saddle

/-!
# Angles between saddle connections

Model of `angle` and `ccw` in libflatsurf/src/saddle_connection.cc.
-/

namespace Verif

/-- `operator-(CCW)`, orientation.cc:40. -/
def CCW.opposite : CCW → CCW
  | .clockwise => .counterclockwise
  | .counterclockwise => .clockwise
  | .collinear => .collinear

namespace FlatTri

variable {T : Type} [CommRing T] [LinearOrder T]
variable {K : Type*} [Field K] [LinearOrder K] (A : Option (Approx T K))

/-- The loop in the helper `angle`, saddle_connection.cc:65-80. -/
def turnLoop (S : FlatTri T) (sourceVector : Vec T) (target : HE) (targetVector : Vec T) :
    ℕ → HE → Vec T → ℕ → CCW → Option ℕ
  | 0, _, _, _, _ => none
  | fuel + 1, sector, turned, angle, sgn =>
    if sector ≠ target ∨ Vec.ccw A turned targetVector ≠ .collinear then
      let stay := sector = target ∧ Vec.ccw A turned targetVector ≠ .clockwise
      let turned := if stay then targetVector else S.vec (S.tri.nextAtVertex sector)
      let sector := if stay then sector else S.tri.nextAtVertex sector
      let ccw := Vec.ccw A sourceVector turned
      if ccw = .collinear ∨ ccw ≠ sgn then
        turnLoop S sourceVector target targetVector fuel sector turned (angle + 1) sgn.opposite
      else turnLoop S sourceVector target targetVector fuel sector turned angle sgn
    else some angle

/-- The helper `angle`, saddle_connection.cc:50-84. The assertion on the result is not modelled. -/
def turn (S : FlatTri T) (fuel : ℕ) (source : HE) (sourceVector : Vec T) (target : HE) (targetVector : Vec T) :
    Option (Except Err ℕ) :=
  match S.tri.source source with
  | none => some (.error .undefined)
  | some v =>
    if S.isSource v target then
      (S.turnLoop A sourceVector target targetVector fuel source sourceVector 0 .counterclockwise).map .ok
    else some (.error .invalidArgument)

/-- `angle`, saddle_connection.cc:209-212. -/
def saddleAngle (S : FlatTri T) (fuel : ℕ) (c : Saddle) (source : HE) (vector : Vec T) : Option (Except Err ℕ) :=
  (S.turn A fuel c.source (S.saddleVector c) source vector).map fun r => r.map (· / 2)

/-- `ccw`, saddle_connection.cc:222-241. -/
def saddleCcw (S : FlatTri T) (fuel : ℕ) (c : Saddle) (source : HE) (vector : Vec T) : Option (Except Err CCW) :=
  (S.turn A fuel c.source (S.saddleVector c) source vector).bind fun r =>
    match r with
    | .error e => some (.error e)
    | .ok angle =>
      if angle = 0 then
        if source = c.source ∧ Vec.ccw A vector (S.saddleVector c) = .collinear then some (.ok .collinear)
        else some (.ok .counterclockwise)
      else match S.tri.source source with
        | none => some (.error .undefined)
        | some v => (S.angle fuel v).map fun totalAngle =>
          if angle = totalAngle ∧ Vec.ccw A vector (S.saddleVector c) = .collinear then .ok .collinear
          else if angle < totalAngle then .ok .counterclockwise
          else .ok .clockwise

end FlatTri

end Verif
