import Verif.Model.Triangulation
import Verif.Model.IndexedSet

/-!
# Data attached to half edges (libflatsurf/src/tracked.cc) and renaming of half edges

Arrays indexed by half edges or edges are modelled by a size and a total function.
-/

namespace Verif

namespace Tri

/-- `p *= {a, b}; {a, b} *= p`, e.g., flat_triangulation_combinatorial.cc:203-204. -/
def conj (p : Perm) (a b : HE) : Except Err Perm := do
  let p ← p.mulCycle [a, b]
  Perm.cycleMul [a, b] p

/-- `conj` for both half edges of the edges, flat_triangulation_combinatorial.cc:203-209 and 211-217. -/
def conjBoth (p : Perm) (a b : HE) : Except Err Perm := do
  let p ← conj p a b
  if a ≠ neg b then conj p (neg a) (neg b) else pure p

/-- `swap(a, b)`, flat_triangulation_combinatorial.cc:198-220. The notification of tracked data (line 201) is modelled
by the handlers below. -/
def swap (T : Tri) (a b : HE) : Except Err Tri := do
  if a = b then return T
  let v ← conjBoth T.vertices a b
  let f ← conjBoth T.faces a b
  match mkVertexes v with
  | some vs => return ⟨v, f, vs⟩
  | none => throw .undefined

end Tri

namespace Tracked

/-- `Tracked<HalfEdge>::defaultSwap`, tracked.cc:112-120. -/
def swapHalfEdge (a b self : HE) : HE :=
  if self = a then b
  else if self = neg a then neg b
  else if self = b then a
  else if self = neg b then neg a
  else self

/-- `Tracked<EdgeSet>::defaultSwap`, tracked.cc:121-129. Half edges are converted to edges. -/
def swapEdgeSet (a b : HE) (self : IndexedSet) : IndexedSet :=
  if a = b ∨ a = neg b then self
  else if self.contains (a / 2) && !self.contains (b / 2) then (self.erase (a / 2)).insert (b / 2)
  else if !self.contains (a / 2) && self.contains (b / 2) then (self.erase (b / 2)).insert (a / 2)
  else self

/-- `std::swap` of two cells. -/
def swapCells {V : Type*} (self : ℕ → V) (i j : ℕ) : ℕ → V :=
  let tmp := self i
  let self' := Function.update self i (self j)
  Function.update self' j tmp

/-- `Tracked<EdgeMap<T>>::defaultSwap`, tracked.cc:130-133. -/
def swapEdgeMap {V : Type*} (a b : HE) (self : ℕ → V) : ℕ → V :=
  if a = b then self else swapCells self (a / 2) (b / 2)

/-- `Tracked<HalfEdgeMap<T>>::defaultSwap`, tracked.cc:134-138. -/
def swapHalfEdgeMap {V : Type*} (a b : HE) (self : HE → V) : HE → V :=
  if a = b then self else swapCells (swapCells self a b) (neg a) (neg b)

/-- `OddHalfEdgeMap<T>::set`, flatsurf/odd_half_edge_map.hpp:47-60, where `n` is the negation of `T`, or of optional `T`.
The value may be a reference to the cell of `-he`, which is only overwritten at the end. -/
def oddSet {V : Type*} (n : V → V) (self : HE → V) (he : HE) (value : V) : HE → V :=
  let self := Function.update self he value
  Function.update self (neg he) (n value)

/-- `Tracked<OddHalfEdgeMap<T>>::defaultSwap`, tracked.cc:139-147. -/
def swapOddHalfEdgeMap {V : Type*} (n : V → V) (a b : HE) (self : HE → V) : HE → V :=
  if a = b then self
  else if a = neg b then oddSet n self a (self b)
  else
    let tmp := self a
    let self := oddSet n self a (self b)
    oddSet n self b tmp

/-- `Tracked<HalfEdge>::defaultErase`, tracked.cc:155-157; edges are given by their indexes. -/
def eraseHalfEdge (erase : List ℕ) (self : HE) : Except Err HE :=
  if self / 2 ∈ erase then .error .logicError else .ok self

/-- `Tracked<EdgeSet>::defaultErase`, tracked.cc:158-160. -/
def eraseEdgeSet (erase : List ℕ) (self : IndexedSet) : IndexedSet := erase.foldl IndexedSet.erase self

/-- An array with its size: the cells from `size` on do not exist. -/
structure Array (V : Type*) where
  size : ℕ
  get : ℕ → V

/-- `Tracked<EdgeMap<T>>::defaultErase`, tracked.cc:161-166 (assertion dropped), with `EdgeMap::pop`,
flatsurf/edge_map.hpp. -/
def eraseEdgeMap {V : Type*} (erase : List ℕ) (self : Array V) : Array V :=
  erase.foldl (fun self _ => ⟨self.size - 1, self.get⟩) self

/-- `Tracked<HalfEdgeMap<T>>::defaultErase` and `Tracked<OddHalfEdgeMap<T>>::defaultErase`, tracked.cc:167-172
(assertion dropped), with `HalfEdgeMap::pop`, flatsurf/half_edge_map.hpp. -/
def eraseHalfEdgeMap {V : Type*} (erase : List ℕ) (self : Array V) : Array V :=
  erase.foldl (fun self _ => ⟨self.size - 2, self.get⟩) self

end Tracked

end Verif
