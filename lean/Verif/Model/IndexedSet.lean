import Verif.Model.Basic
import Mathlib.Logic.Function.Basic

/-!
# Sets of half edges and edges (libflatsurf/src/indexed_set.cc, indexed_set_iterator.cc, half_edge_set.cc, edge_set.cc)

Elements are given by their index.
-/

namespace Verif

/-- `IndexedSet<T>`, impl/indexed_set.hpp, which holds a `boost::dynamic_bitset`. -/
structure IndexedSet where
  size : ℕ
  bits : ℕ → Bool

namespace IndexedSet

/-- `IndexedSet()`, indexed_set.cc:36-38. -/
def empty : IndexedSet := ⟨0, fun _ => false⟩

/-- `dynamic_bitset::resize`, new bits are false. -/
def resize (s : IndexedSet) (n : ℕ) : IndexedSet := ⟨n, fun i => s.bits i && decide (i < n)⟩

/-- `contains`, indexed_set.cc:47-52. -/
def contains (s : IndexedSet) (t : ℕ) : Bool := if s.size ≤ t then false else s.bits t

/-- `insert`, indexed_set.cc:54-59. -/
def insert (s : IndexedSet) (t : ℕ) : IndexedSet :=
  let s := if s.size ≤ t then s.resize (t + 1) else s
  { s with bits := Function.update s.bits t true }

/-- `erase`, indexed_set.cc:87-91. -/
def erase (s : IndexedSet) (t : ℕ) : IndexedSet :=
  if s.size ≤ t then s else { s with bits := Function.update s.bits t false }

/-- `IndexedSet(items)`, indexed_set.cc:40-45. -/
def ofItems (items : List ℕ) : IndexedSet := items.foldl insert empty

/-- `find_first` and `find_next`: the first element from `pos` on, or the size of the bitset if there is none,
cf. indexed_set_iterator.cc:59-64. -/
def findFrom (s : IndexedSet) (pos : ℕ) : ℕ := ((List.range s.size).find? fun i => decide (pos ≤ i) && s.bits i).getD s.size

/-- `begin()`, indexed_set.cc:93-96. -/
def begin (s : IndexedSet) : ℕ := s.findFrom 0

/-- `end()`, indexed_set.cc:98-101. -/
def «end» (s : IndexedSet) : ℕ := s.size

/-- `empty()`, indexed_set.cc:77-80. -/
def isEmpty (s : IndexedSet) : Bool := s.begin == s.end

/-- `size()`, indexed_set.cc:82-85. -/
def count (s : IndexedSet) : ℕ := (List.range s.size).countP s.bits

/-- The comparison of bitsets with `boost::operator==`. -/
def bitsEq (s t : IndexedSet) : Bool := s.size == t.size && (List.range s.size).all fun i => s.bits i == t.bits i

/-- `boost::intersects`. -/
def intersects (s t : IndexedSet) : Bool := (List.range s.size).any fun i => s.bits i && t.bits i

/-- A range-based for loop which evaluates `end` first and then executes something in each step that may change the set:
the elements reported (`none` if the loop has not ended with the given fuel). Increments are `find_next`,
indexed_set_iterator.cc:32-36. -/
def loop (body : IndexedSet → IndexedSet) (stop : ℕ) : ℕ → ℕ → IndexedSet → Option (List ℕ)
  | 0, _, _ => none
  | fuel + 1, pos, s =>
    if pos = stop then some []
    else
      let s := body s
      (loop body stop fuel (s.findFrom (pos + 1)) s).map (pos :: ·)

/-- The elements reported by iterating from `begin()` to `end()`. -/
def iterate (fuel : ℕ) (s : IndexedSet) : Option (List ℕ) := loop id s.end fuel s.begin s

/-- A program with sets. -/
inductive Op where
  /-- `HalfEdgeSet()` -/
  | new
  /-- `HalfEdgeSet(items)` -/
  | ofItems (items : List ℕ)
  /-- copies a set -/
  | copy (i : ℕ)
  | insert (i t : ℕ)
  | erase (i t : ℕ)
  /-- `sets[i] == sets[j]` -/
  | eq (i j : ℕ)
  /-- `sets[i].disjoint(sets[j])` -/
  | disjoint (i j : ℕ)

/-- The resizing in `==` and `disjoint`, indexed_set.cc:63-64, 71-72. -/
def align (l : List IndexedSet) (i j : ℕ) : Option (List IndexedSet) := do
  let s ← l[i]?
  let t ← l[j]?
  let l := l.set i (s.resize (max s.size t.size))
  let s ← l[i]?
  let t ← l[j]?
  return l.set j (t.resize (max s.size t.size))

/-- `operator==` of `HalfEdgeSet`s, indexed_set.cc:61-67, half_edge_set.cc:50-52. -/
def eq (l : List IndexedSet) (i j : ℕ) : Option Bool := do
  let l ← align l i j
  let s ← l[i]?
  let t ← l[j]?
  return s.bitsEq t

/-- `disjoint`, indexed_set.cc:69-75. -/
def disjoint (l : List IndexedSet) (i j : ℕ) : Option Bool := do
  let l ← align l i j
  let s ← l[i]?
  let t ← l[j]?
  return !s.intersects t

/-- `operator==` of `EdgeSet`s, edge_set.cc:51-53: compares the pointers to the implementations. Distinct sets have
distinct implementations. -/
def edgeSetEq (l : List IndexedSet) (i j : ℕ) : Option Bool := do
  let _ ← l[i]?
  let _ ← l[j]?
  return i == j

/-- The sets after an operation, `none` if a set does not exist. -/
def step (l : List IndexedSet) : Op → Option (List IndexedSet)
  | .new => some (l ++ [empty])
  | .ofItems items => some (l ++ [IndexedSet.ofItems items])
  | .copy i => l[i]?.map fun s => l ++ [s]
  | .insert i t => l[i]?.map fun s => l.set i (s.insert t)
  | .erase i t => l[i]?.map fun s => l.set i (s.erase t)
  | .eq i j => align l i j
  | .disjoint i j => align l i j

/-- The sets after a history of operations. -/
def run : List Op → List IndexedSet → Option (List IndexedSet)
  | [], l => some l
  | op :: ops, l => (step l op).bind (run ops)

end IndexedSet

end Verif
