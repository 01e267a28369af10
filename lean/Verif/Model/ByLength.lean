import Verif.Model.SaddleSearch

/-!
# Saddle connections by length (libflatsurf/src/saddle_connections_by_length.cc, saddle_connections_by_length_iterator.cc)
-/

namespace Verif

variable {T : Type} [CommRing T] [LinearOrder T] {K : Type} [Field K] [LinearOrder K] [IsStrictOrderedRing K]

/-- `FlatTriangulation::shortest`, flat_triangulation.cc:414-423, where `std::min_element` returns the first of the shortest
edges. If there are no edges, then the end of the list of edges is dereferenced, which is undefined behavior; this is `none`. -/
def FlatTri.shortest (S : FlatTri T) : Option (Vec T) :=
  ((List.range (S.tri.size / 2)).map fun i => S.vec (2 * i)).foldl
    (fun best v => match best with
      | none => some v
      | some w => if Vec.dot v v < Vec.dot w w then some v else some w) none

namespace ByLength

open SaddleConnections

/-- What is fixed during an iteration: the saddle connections; `std::sort` with `Vector::CompareLength`, which does not
determine the order of saddle connections of the same length; and `Bound::upper`, bound.cc:434-449. -/
structure Params (T K : Type) [CommRing T] [LinearOrder T] [Field K] [LinearOrder K] [IsStrictOrderedRing K] where
  A : Option (Approx T K)
  dbg : Bool
  S : FlatTri T
  connections : State T
  sort : List Saddle → List Saddle
  upper : Vec T → Bound

/-- The state of the iterator, impl/saddle_connections_by_length_iterator.impl.hpp:47-53. -/
structure Iterator where
  lowerBoundExclusive : Bound
  upperBoundInclusive : Bound
  connectionsWithinBounds : List Saddle
  currents : List Saddle

/-- The constructor, saddle_connections_by_length_iterator.cc:59-64, which is also the iterator `end()`,
saddle_connections_by_length.cc:45-48. -/
def Iterator.end : Iterator := ⟨.zero, .zero, [], []⟩

/-- The loop in `ImplementationOf<SaddleConnectionsByLengthIterator>::increment`,
saddle_connections_by_length_iterator.cc:69-94. It is `none` if more than `fuel` steps are needed here, or if more than
`search` steps are needed in one of the searches. -/
def fill (P : Params T K) (search : ℕ) : ℕ → Iterator → Option (Except Err Iterator)
  | 0, _ => none
  | fuel + 1, it =>
    if it.connectionsWithinBounds.isEmpty = false then some (.ok it)
    else
      let bounds := if it.upperBoundInclusive.beq (.ofInt 0) then P.S.shortest.map fun v => (Bound.ofInt 0, P.upper v)
        else some (it.upperBoundInclusive, it.upperBoundInclusive.scale 2)
      match bounds with
      | none => some (.error .undefined)
      | some (lower, upper) =>
        let over : Bool := match P.connections.searchRadius with
          | some r => !lower.lt r
          | none => false
        if over then some (.ok { it with lowerBoundExclusive := .ofInt 0, upperBoundInclusive := .ofInt 0 })
        else (SaddleSearch.enumerate P.A P.dbg P.S (lowerBound (bound P.connections upper) lower) search).bind fun
          | .error err => some (.error err)
          | .ok l => fill P search fuel ⟨lower, upper, P.sort l, it.currents⟩

/-- `begin()`, saddle_connections_by_length.cc:36-43. -/
def begin (P : Params T K) (fuel : ℕ) : Option (Except Err Iterator) :=
  (fill P fuel fuel .end).map (·.map fun it => match it.connectionsWithinBounds with
    | [] => it
    | c :: _ => { it with currents := c :: it.currents })

/-- `SaddleConnectionsByLengthIterator::increment`, saddle_connections_by_length_iterator.cc:33-42. -/
def increment (P : Params T K) (fuel : ℕ) (it : Iterator) : Option (Except Err Iterator) :=
  match it.connectionsWithinBounds with
  | [] => some (.error (if P.dbg then .logicError else .undefined))
  | _ :: l =>
    let it := { it with connectionsWithinBounds := l }
    (if l.isEmpty then fill P fuel fuel it else some (.ok it)).map (·.map fun it =>
      let it := match it.connectionsWithinBounds with
        | [] => it
        | c :: _ => { it with currents := c :: it.currents }
      if it.currents.length > 3 then { it with currents := it.currents.dropLast } else it)

/-- `dereference`, saddle_connections_by_length_iterator.cc:44-48. -/
def dereference (P : Params T K) (it : Iterator) : Except Err Saddle :=
  if P.dbg ∧ it.connectionsWithinBounds = [] then .error .logicError
  else match it.currents with
    | [] => .error .undefined
    | c :: _ => .ok c

/-- Whether the iterator is equal to `end()`, saddle_connections_by_length_iterator.cc:50-53. -/
def atEnd (it : Iterator) : Bool :=
  it.upperBoundInclusive.beq Iterator.end.upperBoundInclusive && it.lowerBoundExclusive.beq Iterator.end.lowerBoundExclusive &&
    it.connectionsWithinBounds.length == Iterator.end.connectionsWithinBounds.length

/-- Iterating with `for (auto it = begin; it != end; ++it)`. -/
def collect (P : Params T K) (fuel : ℕ) : ℕ → Iterator → Option (Except Err (List Saddle))
  | 0, _ => none
  | n + 1, it =>
    if atEnd it then some (.ok [])
    else match dereference P it with
      | .error err => some (.error err)
      | .ok c => (increment P fuel it).bind fun
        | .error err => some (.error err)
        | .ok it => (collect P fuel n it).map (·.map (c :: ·))

/-- `for (const auto& connection : connections.byLength())`. -/
def enumerate (P : Params T K) (fuel : ℕ) : Option (Except Err (List Saddle)) :=
  (begin P fuel).bind fun
    | .error err => some (.error err)
    | .ok it => collect P fuel fuel it

/-- The first connections in such a loop that is left once `n` connections have been seen. -/
def firsts (P : Params T K) (fuel : ℕ) : ℕ → Iterator → Option (Except Err (List Saddle))
  | 0, _ => some (.ok [])
  | n + 1, it =>
    if atEnd it then some (.ok [])
    else match dereference P it with
      | .error err => some (.error err)
      | .ok c =>
        if n = 0 then some (.ok [c])
        else (increment P fuel it).bind fun
          | .error err => some (.error err)
          | .ok it => (firsts P fuel n it).map (·.map (c :: ·))

/-- The first connections in a loop over `connections.byLength()`. -/
def enumerateFirsts (P : Params T K) (fuel n : ℕ) : Option (Except Err (List Saddle)) :=
  (begin P fuel).bind fun
    | .error err => some (.error err)
    | .ok it => firsts P fuel n it

end ByLength

end Verif
