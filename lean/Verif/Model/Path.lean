import Verif.Model.Saddle

/-!
# Paths

Model of libflatsurf/src/path.cc and path_iterator.cc without `tighten`. A path is the list of its saddle connections, the
`std::vector` in impl/path.impl.hpp.
-/

namespace Verif

namespace FlatTri

variable {T : Type} [CommRing T] [LinearOrder T]

/-- `connected`, path.cc:455-458. -/
def connected (S : FlatTri T) (c d : Saddle) : Bool :=
  match S.tri.source c.target with
  | none => false
  | some v => S.isSource v d.source

/-- The constructor from a vector, path.cc:447-453, where the assertion is for debug builds. -/
def makePath (dbg : Bool) (S : FlatTri T) (p : List Saddle) : Except Err (List Saddle) :=
  if dbg && !(p.zip p.tail).all (fun cd => S.connected cd.1 cd.2) then .error .logicError else .ok p

/-- `operator==`, path.cc:260-263: the vectors are compared. -/
def pathEq (S : FlatTri T) : List Saddle → List Saddle → Bool
  | [], [] => true
  | c :: p, d :: q => S.saddleEq c d && S.pathEq p q
  | _, _ => false

/-- `closed`, path.cc:265-269. -/
def pathClosed (S : FlatTri T) (p : List Saddle) : Bool :=
  match p.getLast?, p.head? with
  | some c, some d => S.connected c d
  | _, _ => true

/-- `area`, path.cc:352-356, with the assertions in `area2`, vector.cc:593-595. -/
def pathArea (dbg : Bool) (S : FlatTri T) (p : List Saddle) : Except Err T :=
  if !S.pathClosed p then .error .invalidArgument
  else
    let vectors := p.map S.saddleVector
    if dbg && decide (vectors.foldl (· + ·) 0 ≠ 0) then .error .logicError
    else if dbg && decide (Vec.area2 vectors < 0) then .error .logicError
    else .ok (Vec.area2 vectors)

/-- A `std::unordered_set` of saddle connections that do not compare equal to each other; two saddle connections are only
compared when they have the same hash. -/
def hashSet (S : FlatTri T) (p : List Saddle) : List Saddle :=
  p.foldl (fun set c => if set.any (fun d => decide (S.saddleHash c = S.saddleHash d) && S.saddleEq c d) then set else c :: set) []

/-- `simple`, path.cc:271-276. -/
def pathSimple (S : FlatTri T) (p : List Saddle) : Bool := decide ((S.hashSet p).length = p.length)

end FlatTri

namespace Path

/-- `operator-`, path.cc:252-258. The constructor's assertion is not modelled. -/
def neg (p : List Saddle) : List Saddle := p.reverse.foldl (fun r c => r ++ [c.neg]) []

/-- `reversed`, path.cc:278-281. -/
def reversed (p : List Saddle) : List Saddle := (p.map Saddle.neg).reverse

/-! ### Iteration -/

/-- `ImplementationOf<PathIterator>`, impl/path_iterator.impl.hpp, for iterators of one path. -/
structure Iter where
  position : ℕ
  turn : ℕ
  atEnd : Bool
deriving DecidableEq

namespace Iter

/-- The constructor, path_iterator.cc:69-77. -/
def make (p : List Saddle) (position : ℕ) : Iter := if position = p.length then ⟨0, 0, true⟩ else ⟨position, 0, false⟩

/-- `begin`, path.cc:358-361. -/
def first (p : List Saddle) : Iter := make p 0

/-- `end`, path.cc:363-366. -/
def last (p : List Saddle) : Iter := make p p.length

/-- `increment`, path_iterator.cc:31-40, without the assertions. -/
def next (p : List Saddle) (i : Iter) : Iter :=
  if i.position + 1 = p.length then { i with position := 0, turn := i.turn + 1 } else { i with position := i.position + 1 }

/-- `dereference`, path_iterator.cc:42-48; dereferencing an iterator outside of the vector is undefined. -/
def get (p : List Saddle) (i : Iter) : Except Err Saddle :=
  match p[i.position]? with
  | some c => .ok c
  | none => .error .undefined

/-- `equal`, path_iterator.cc:50-59. -/
def eq (i j : Iter) : Bool :=
  if i.atEnd then j.atEnd || decide (j.turn ≠ 0)
  else if j.atEnd then decide (i.turn ≠ 0)
  else decide (i.position = j.position)

end Iter

/-- Visits all segments of a path in a loop like `for (auto& segment : path)`. The result is `none` when the loop has not
ended with the given fuel. -/
def visit (p : List Saddle) : ℕ → Iter → Option (Except Err (List Saddle))
  | 0, _ => none
  | fuel + 1, i =>
    if i.eq (Iter.last p) then some (.ok [])
    else match i.get p with
      | .error e => some (.error e)
      | .ok c => (visit p fuel (i.next p)).map fun r => r.map (c :: ·)

/-! ### Modification -/

/-- `operator+=` when the paths are different objects, path.cc:307-312. -/
def append (fuel : ℕ) (p q : List Saddle) : Option (Except Err (List Saddle)) :=
  (visit q fuel (Iter.first q)).map fun r => r.map fun s => s.foldl (fun p c => p ++ [c]) p

/-- `operator+=` when both paths are the same object. The loop appends to the vector it is iterating over. `capacity` is the
capacity of the vector. When the vector does not have enough capacity then its elements are moved to another place so that
the iterator of the loop cannot be used anymore. -/
def appendSelf : ℕ → ℕ → List Saddle → Iter → Option (Except Err (List Saddle))
  | 0, _, _, _ => none
  | fuel + 1, capacity, p, i =>
    if i.eq (Iter.last p) then some (.ok p)
    else match i.get p with
      | .error e => some (.error e)
      | .ok c =>
        if p.length = capacity then some (.error .undefined)
        else appendSelf fuel capacity (p ++ [c]) (i.next (p ++ [c]))

/-- `splice`, path.cc:329-345, for different objects: the path and the other path afterwards. -/
def splice (p : List Saddle) (i : Iter) (q : List Saddle) : List Saddle × List Saddle :=
  let n := if i.eq (Iter.last p) then p.length else i.position
  (p.take n ++ q ++ p.drop n, [])

end Path

end Verif
