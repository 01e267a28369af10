import Verif.Model.Point
import Verif.Model.Bound
import Verif.Model.SaddleAngle

/-!
# Restrictions of the search for saddle connections (libflatsurf/src/saddle_connections.cc)

A saddle connection is given by the half edge at its source and its vector, which is all that matters here.
-/

namespace Verif

variable {T : Type} [CommRing T] [LinearOrder T] {K : Type} [Field K] [LinearOrder K] [IsStrictOrderedRing K]

namespace SaddleConnections

/-- `Sector`, impl/saddle_connections.impl.hpp:40-53. -/
structure Sector (T : Type) where
  source : HE
  sector : Option (Vec T × Vec T)

/-- The sectors and bounds, impl/saddle_connections.impl.hpp:61-64. The surface is an explicit argument. -/
structure State (T : Type) where
  sectors : List (Sector T)
  searchRadius : Option Bound
  lowerBound : Bound

/-- The constructor, saddle_connections.cc:185-188. -/
def make (S : FlatTri T) : State T := ⟨S.tri.halfEdges.map fun e => ⟨e, none⟩, none, .zero⟩

/-- `Sector::refine`, saddle_connections.cc:195-230. The assertions in the beginning are only made in debug builds. -/
def refine (A : Option (Approx T K)) (dbg : Bool) (S : FlatTri T) (s : Sector T) (b e : Vec T) : Except Err (List (Sector T)) := do
  let sector := s.sector.getD (S.vec s.source, S.vec (S.tri.nextAtVertex s.source))
  if dbg ∧ Vec.ccw A sector.1 (S.vec s.source) = .clockwise then
    throw .logicError
  if dbg ∧ Vec.ccw A sector.2 (S.vec s.source) = .counterclockwise then
    throw .logicError
  if ← Vec.inSector A b sector.1 sector.2 then
    if Vec.ccw A b e = .clockwise then
      if Vec.ccw A sector.1 e = .counterclockwise then
        return [⟨s.source, some (b, sector.2)⟩, ⟨s.source, some (sector.1, e)⟩]
      else
        return [⟨s.source, some (b, sector.2)⟩]
    else if ← Vec.inSector A e sector.1 sector.2 then
      return [⟨s.source, some (b, e)⟩]
    else
      return [⟨s.source, some (b, sector.2)⟩]
  else if (← Vec.inSector A e sector.1 sector.2) && !(decide (Vec.ccw A e sector.1 = .collinear) &&
      decide (Vec.orientation A e sector.1 = .same)) then
    return [⟨s.source, some (sector.1, e)⟩]
  else if ← Vec.inSector A sector.1 b e then
    return [s]
  else
    return []

/-- `Sector::contains`, saddle_connections.cc:232-239. -/
def contains (A : Option (Approx T K)) (s : Sector T) (source : HE) (vector : Vec T) : Except Err Bool :=
  if source ≠ s.source then .ok false
  else match s.sector with
    | none => .ok true
    | some p => Vec.inSector A vector p.1 p.2

/-- `bound`, saddle_connections.cc:54-60. -/
def bound (s : State T) (b : Bound) : State T :=
  { s with searchRadius := some (match s.searchRadius with
    | some r => if b.lt r then b else r
    | none => b) }

/-- `lowerBound`, saddle_connections.cc:74-80. -/
def lowerBound (s : State T) (b : Bound) : State T :=
  { s with lowerBound := if s.lowerBound.lt b then b else s.lowerBound }

/-- `source`, saddle_connections.cc:82-90. -/
def source (S : FlatTri T) (s : State T) (v : Finset HE) : State T :=
  { s with sectors := s.sectors.filter fun t => match S.tri.source t.source with
    | some w => FlatTri.sameVertex w v
    | none => false }

/-- `sector(HalfEdge)`, saddle_connections.cc:92-100. -/
def sectorHalfEdge (s : State T) (e : HE) : State T := { s with sectors := s.sectors.filter fun t => t.source = e }

/-- The loops that replace each sector by some others, saddle_connections.cc:107-109, 123-154. -/
def forSectors (g : Sector T → Option (Except Err (List (Sector T)))) : List (Sector T) → Option (Except Err (List (Sector T)))
  | [] => some (.ok [])
  | s :: ss => (g s).bind fun
    | .error err => some (.error err)
    | .ok l => (forSectors g ss).map (·.map (l ++ ·))

/-- `sector(Vector, Vector)`, saddle_connections.cc:102-114. -/
def sectorVectors (A : Option (Approx T K)) (dbg : Bool) (S : FlatTri T) (s : State T) (b e : Vec T) :
    Option (Except Err (State T)) :=
  (forSectors (fun t => some (refine A dbg S t b e)) s.sectors).map (·.map fun l => { s with sectors := l })

/-- The loop in `sector(SaddleConnection, SaddleConnection)`, saddle_connections.cc:146-151: whether one gets to `e` before
one gets to `b` when walking counterclockwise around a vertex. -/
def meets (S : FlatTri T) (b e : HE) : ℕ → HE → Option Bool
  | 0, _ => none
  | fuel + 1, walk =>
    if walk = b then some false
    else if walk = e then some true
    else meets S b e fuel (S.tri.nextAtVertex walk)

/-- What becomes of a sector in `sector(SaddleConnection, SaddleConnection)`, saddle_connections.cc:124-153. -/
def between (A : Option (Approx T K)) (dbg : Bool) (S : FlatTri T) (b e : HE × Vec T) (fuel : ℕ) (s : Sector T) :
    Option (Except Err (List (Sector T))) :=
  if b.1 = e.1 then
    if s.source = b.1 then some (refine A dbg S s b.2 e.2)
    else if Vec.ccw A b.2 e.2 = .clockwise then some (.ok [s])
    else some (.ok [])
  else if s.source = b.1 then some (refine A dbg S s b.2 (S.vec (S.tri.nextAtVertex s.source)))
  else if s.source = e.1 then
    if Vec.ccw A (S.vec s.source) e.2 = .collinear then some (.ok [])
    else some (refine A dbg S s (S.vec s.source) e.2)
  else (meets S b.1 e.1 fuel s.source).map fun r => .ok (if r then [s] else [])

/-- `sector(SaddleConnection, SaddleConnection)`, saddle_connections.cc:116-158. -/
def sectorConnections (A : Option (Approx T K)) (dbg : Bool) (S : FlatTri T) (s : State T) (b e : HE × Vec T) (fuel : ℕ) :
    Option (Except Err (State T)) :=
  match S.tri.source b.1, S.tri.source e.1 with
  | some v, some w =>
    let s := source S (source S s v) w
    (forSectors (between A dbg S b e fuel) s.sectors).map (·.map fun l => { s with sectors := l })
  | _, _ => some (.error .undefined)

/-- The calls that restrict a search. -/
inductive Restriction (T : Type)
  | bound (b : Bound)
  | lowerBound (b : Bound)
  | source (v : Finset HE)
  | halfEdge (e : HE)
  | vectors (b e : Vec T)
  | connections (b e : HE × Vec T)

/-- The effect of a call. -/
def step (A : Option (Approx T K)) (dbg : Bool) (S : FlatTri T) (fuel : ℕ) (s : State T) : Restriction T → Option (Except Err (State T))
  | .bound b => some (.ok (bound s b))
  | .lowerBound b => some (.ok (lowerBound s b))
  | .source v => some (.ok (source S s v))
  | .halfEdge e => some (.ok (sectorHalfEdge s e))
  | .vectors b e => sectorVectors A dbg S s b e
  | .connections b e => sectorConnections A dbg S s b e fuel

/-- The effect of a sequence of calls. -/
def run (A : Option (Approx T K)) (dbg : Bool) (S : FlatTri T) (fuel : ℕ) : State T → List (Restriction T) → Option (Except Err (State T))
  | s, [] => some (.ok s)
  | s, f :: fs => (step A dbg S fuel s f).bind fun
    | .error err => some (.error err)
    | .ok s => run A dbg S fuel s fs

end SaddleConnections

end Verif
