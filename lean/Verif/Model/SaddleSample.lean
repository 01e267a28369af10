import Verif.Model.SaddlePath

/-!
# Sampling saddle connections (libflatsurf/src/saddle_connections_sample_iterator.cc)

The random choices that the iterator makes are an argument. All the computations with floating point numbers only serve to
make such a choice, so they are not modelled.
-/

namespace Verif

variable {T : Type} [CommRing T] [LinearOrder T] {K : Type} [Field K] [LinearOrder K] [IsStrictOrderedRing K]

namespace SaddleSample

open SaddleConnections SaddleSearch

/-- The random choices in a call of `increment`. The sector is `sector` modulo the number of sectors. The `i`-th call of the
lambda `ccw` returns `COUNTERCLOCKWISE` or `CLOCKWISE`, depending on whether `side i` is `some true` or `some false`; it throws
if `side i` is `none`, saddle_connections_sample_iterator.cc:125-126. -/
structure Choices where
  sector : ℕ
  side : ℕ → Option Bool

/-- The lambda `ccw`, saddle_connections_sample_iterator.cc:100-149: whether it returns `COUNTERCLOCKWISE`. -/
def ccw (P : Params T K) (sectorBegin sectorEnd c : Vec T) (side : Option Bool) : Except Err Bool := do
  if P.dbg then
    if !(← Vec.inSector P.A c sectorBegin sectorEnd) then
      throw .logicError
  match side with
  | none => .error .logicError
  | some b => .ok b

/-- `seen.find(current) != end(seen)`, saddle_connections_sample_iterator.cc:160, in the implementation of
`std::unordered_set` in libstdc++, which compares elements when they have the same hash. -/
def find (P : Params T K) (seen : List Saddle) (c : Saddle) : Except Err Bool :=
  let l := seen.filter fun d => decide (P.S.saddleHash c = P.S.saddleHash d)
  if P.dbg ∧ l.any (fun d => P.S.saddleEq d c && decide (d.target ≠ c.target)) then .error .logicError
  else .ok (l.any fun d => P.S.saddleEq d c)

/-- The loop in `increment`, saddle_connections_sample_iterator.cc:154-185. The result are the new values of `current` and of
`seen`. -/
def loop (P : Params T K) (lower : Bound) (outerBegin outerEnd : Vec T) (side : ℕ → Option Bool) (seen : List Saddle) (F : ℕ) :
    ℕ → ℕ → Vec T → Vec T → Machine T → Option (Except Err (Saddle × List Saddle))
  | 0, _, _, _, _ => none
  | fuel + 1, i, sectorBegin, sectorEnd, m =>
    match dereference P m with
    | .error err => some (.error err)
    | .ok current =>
      let v := P.S.saddleVector current
      let go (w : CCW) (i : ℕ) (sectorBegin sectorEnd : Vec T) : Option (Except Err (Saddle × List Saddle)) :=
        match skipSector P m w with
        | .error err => some (.error err)
        | .ok m => (advance P F m).bind fun
          | .error err => some (.error err)
          | .ok m => loop P lower outerBegin outerEnd side seen F fuel i sectorBegin sectorEnd m
      match (if Vec.gtBound P.A v lower then find P seen current else .ok true : Except Err Bool) with
      | .error err => some (.error err)
      | .ok false => some (.ok (current, current :: seen))
      | .ok true =>
        if v = outerBegin then go .clockwise i sectorBegin sectorEnd
        else if v = outerEnd then go .counterclockwise i sectorBegin sectorEnd
        else match ccw P sectorBegin sectorEnd v (side i) with
          | .error err => some (.error err)
          | .ok true => go .clockwise (i + 1) v sectorEnd
          | .ok false => go .counterclockwise (i + 1) sectorBegin v

/-- `increment`, saddle_connections_sample_iterator.cc:62-186. -/
def increment (A : Option (Approx T K)) (dbg : Bool) (S : FlatTri T) (st : State T) (fuel : ℕ) (seen : List Saddle) (ω : Choices) :
    Option (Except Err (Saddle × List Saddle)) :=
  if st.searchRadius.isSome then some (.error .logicError)
  else match st.sectors[ω.sector % st.sectors.length]? with
    | none => some (.error .logicError)
    | some sector =>
      let connections := sectorHalfEdge st sector.source
      let P : Params T K := ⟨A, dbg, S, connections.searchRadius, .zero⟩
      let outer := sector.sector.getD (S.vec sector.source, S.vec (S.tri.nextAtVertex sector.source))
      if dbg ∧ sector.sector.isSome ∧ outer.1 = outer.2 then some (.error .logicError)
      else (start P fuel connections.sectors).bind fun
        | .error err => some (.error err)
        | .ok m => (advance P fuel m).bind fun
          | .error err => some (.error err)
          | .ok m => loop P st.lowerBound outer.1 outer.2 ω.side seen fuel fuel 0 outer.1 outer.2 m

/-- The constructor, saddle_connections_sample_iterator.cc:53-60. It is undefined behavior to access the first sector if there
is none. -/
def construct (A : Option (Approx T K)) (dbg : Bool) (S : FlatTri T) (st : State T) (fuel : ℕ) (ω : Choices) :
    Option (Except Err (Saddle × List Saddle)) :=
  match st.sectors with
  | [] => some (.error .undefined)
  | _ => increment A dbg S st fuel [] ω

/-- The saddle connections that are reported by `++it; *it; …` once `seen` have been reported. -/
def more (A : Option (Approx T K)) (dbg : Bool) (S : FlatTri T) (st : State T) (fuel : ℕ) : List Choices → List Saddle →
    Option (Except Err (List Saddle))
  | [], _ => some (.ok [])
  | ω :: l, seen => (increment A dbg S st fuel seen ω).bind fun
    | .error err => some (.error err)
    | .ok r => (more A dbg S st fuel l r.2).map (·.map (r.1 :: ·))

/-- The saddle connections that are reported by `auto it = begin(connections.sample()); *it; ++it; *it; …`, one for each of the
random choices. -/
def sample (A : Option (Approx T K)) (dbg : Bool) (S : FlatTri T) (st : State T) (fuel : ℕ) : List Choices →
    Option (Except Err (List Saddle))
  | [] => some (.ok [])
  | ω :: l => (construct A dbg S st fuel ω).bind fun
    | .error err => some (.error err)
    | .ok r => (more A dbg S st fuel l r.2).map (·.map (r.1 :: ·))

end SaddleSample

end Verif
