import Verif.Model.HalfEdge
import Verif.Model.Bound
import Mathlib.Logic.Function.Basic

/-!
# Chains (libflatsurf/src/chain.cc, chain_vector.cc, chain_iterator.cc)

A chain stores its coefficients and two cached vectors, an exact one and an approximation. The caches hold a value and a
list of moves which have not been applied to it yet, or no value. As conversions of a chain to a vector modify the
caches of the chain, and since `c += c` is possible, all operations are modelled as operations on a heap of chains.
-/

namespace Verif

/-- The surface chains live on, which must not change: the number of edges and the vectors of the half edges, exact
(`fromHalfEdge`) and approximate (`fromHalfEdgeApproximate`). -/
structure ChainSurface (T K : Type*) [CommRing T] [LinearOrder T] [Field K] [LinearOrder K] where
  A : Approx T K
  size : ℕ
  vec : ℕ → Vec T
  approx : ℕ → Vec (Ball K)

/-- The estimates of the cost of operations, chain_vector.cc:35-85, for the exact coordinates and for Arb. The
results must not depend on them, so they are arbitrary here. -/
structure Cost where
  add : ℕ
  copy : ℕ
  convert : ℕ
  addArb : ℕ
  copyArb : ℕ

namespace Cost

/-- chain_vector.cc:76-84. -/
def recompute (c : Cost) (edges : ℕ) : ℕ := edges * (2 * c.add)

end Cost

/-- `enum class MOVE`, impl/chain_vector.hpp. -/
inductive Move where
  | add | sub

/-- `ChainVector`, impl/chain_vector.hpp: the members `value`, `pendingMoves` and `pendingMovesCost`. -/
structure Cache (V : Type*) where
  value : Option V
  pending : List (Move × V)
  cost : ℕ

/-- `ImplementationOf<Chain>`, impl/chain.impl.hpp. -/
structure ChainObj (T K : Type*) [CommRing T] [LinearOrder T] [Field K] [LinearOrder K] where
  coefficients : ℕ → ℤ
  vector : Cache (Vec T)
  approximateVector : Cache (Vec (Ball K))

namespace Cache

variable {V : Type*}

/-- A cache without value, chain_vector.cc:89-92. -/
def empty : Cache V := ⟨none, [], 0⟩

/-- A cache with a value, chain_vector.cc:94-98, and the assignments chain_vector.cc:104-118. -/
def of (v : V) : Cache V := ⟨some v, [], 0⟩

/-- Applies the pending moves to the value, chain_vector.cc:214-228. -/
def flush (add sub : V → V → V) (c : Cache V) : Cache V :=
  match c.value with
  | some v => ⟨some (c.pending.foldl (fun v m => match m.1 with
      | .add => add v m.2
      | .sub => sub v m.2) v), [], 0⟩
  | none => c

end Cache

namespace Ball

/-- `arb_neg`, which is exact. -/
def neg {K : Type*} [Field K] [LinearOrder K] (a : Ball K) : Ball K := ⟨-a.mid, a.rad, a.rad_nonneg⟩

end Ball

namespace Chain

variable {T K : Type*} [CommRing T] [LinearOrder T] [Field K] [LinearOrder K] [IsStrictOrderedRing K]

/-- `Vector<Arb>::operator+=`, vector.cc:109-130. -/
def addArb (A : Approx T K) (v w : Vec (Ball K)) : Vec (Ball K) := ⟨A.add v.x w.x, A.add v.y w.y⟩

/-- `Vector<Arb>::operator-=`, vector.cc:132-135. -/
def subArb (A : Approx T K) (v w : Vec (Ball K)) : Vec (Ball K) := addArb A v ⟨w.x.neg, w.y.neg⟩

/-- The vector recomputed from the coefficients, chain_vector.cc:242-248. -/
def exact (S : ChainSurface T K) (coefficients : ℕ → ℤ) : Vec T :=
  (List.range S.size).foldl (fun v i =>
    if coefficients i ≠ 0 then v + ((coefficients i : ℤ) : T) • S.vec (2 * i) else v) 0

/-- The conversion of the exact cache to a vector, chain_vector.cc:212-257. Afterwards the cache has a value. When there
is no value, the pending moves are asserted to be empty in debug builds. -/
def toVector (S : ChainSurface T K) (c : ChainObj T K) : ChainObj T K :=
  match c.vector.value with
  | some _ => { c with vector := c.vector.flush (· + ·) (· - ·) }
  | none =>
    let v := exact S c.coefficients
    { c with
      vector := { c.vector with value := some v }
      approximateVector := Cache.of ⟨S.A.arb v.x, S.A.arb v.y⟩ }

/-- The conversion of the approximate cache to a vector, chain_vector.cc:212-257. -/
def toApproximate (S : ChainSurface T K) (c : ChainObj T K) : ChainObj T K :=
  match c.approximateVector.value with
  | some _ => { c with approximateVector := c.approximateVector.flush (addArb S.A) (subArb S.A) }
  | none =>
    let c := toVector S c
    match c.approximateVector.value, c.vector.value with
    | none, some v =>
      { c with approximateVector := { c.approximateVector with value := some ⟨S.A.arb v.x, S.A.arb v.y⟩ } }
    | _, _ => c

/-- `recomputeCost()` of the exact cache, chain_vector.cc:204-210. -/
def recomputeCost (κ : Cost) (S : ChainSurface T K) (c : ChainObj T K) : ℕ :=
  if c.vector.value.isSome then c.vector.cost else κ.recompute S.size

/-- `recomputeCost()` of the approximate cache, chain_vector.cc:204-210. -/
def recomputeCostArb (κ : Cost) (S : ChainSurface T K) (c : ChainObj T K) : ℕ :=
  if c.vector.value.isSome then c.vector.cost + κ.convert else κ.recompute S.size + κ.convert

/-- `vector += halfEdge`, chain_vector.cc:120-140. -/
def vectorAddHalfEdge (κ : Cost) (S : ChainSurface T K) (e : ℕ) (c : ChainObj T K) : ChainObj T K :=
  match c.vector.value with
  | none => c
  | some _ =>
    if c.vector.cost + κ.copy + κ.add > recomputeCost κ S c then { c with vector := .empty }
    else { c with vector := { c.vector with
      pending := c.vector.pending ++ [(.add, S.vec e)], cost := c.vector.cost + κ.add } }

/-- `approximateVector += halfEdge`, chain_vector.cc:120-140. -/
def approximateAddHalfEdge (κ : Cost) (S : ChainSurface T K) (e : ℕ) (c : ChainObj T K) : ChainObj T K :=
  match c.approximateVector.value with
  | none => c
  | some _ =>
    if c.approximateVector.cost + κ.copyArb + κ.addArb > recomputeCostArb κ S c then
      { c with approximateVector := .empty }
    else { c with approximateVector := { c.approximateVector with
      pending := c.approximateVector.pending ++ [(.add, S.approx e)], cost := c.approximateVector.cost + κ.addArb } }

/-- A heap of chains: `n` chains have been created. -/
structure Heap (T K : Type*) [CommRing T] [LinearOrder T] [Field K] [LinearOrder K] where
  n : ℕ
  get : ℕ → ChainObj T K

namespace Heap

/-- Stores a chain. -/
def set (h : Heap T K) (i : ℕ) (c : ChainObj T K) : Heap T K := { h with get := Function.update h.get i c }

/-- Creates a chain. -/
def push (h : Heap T K) (c : ChainObj T K) : Heap T K := { n := h.n + 1, get := Function.update h.get h.n c }

end Heap

/-- `ChainVector::record` for the exact caches of the chains `i` and `j`, chain_vector.cc:167-202. (In the C++ source
`std::is_rvalue_reference_v<V>` is false for all `V` which are deduced, so that `rhs` is always copied.) -/
def vectorRecord (κ : Cost) (S : ChainSurface T K) (m : Move) (i j : ℕ) (h : Heap T K) : Heap T K :=
  match (h.get i).vector.value with
  | none => h
  | some _ =>
    match (h.get j).vector.value with
    | none => h.set i { h.get i with vector := .empty }
    | some _ =>
      if (h.get j).vector.cost + (h.get i).vector.cost + κ.copy + κ.add > recomputeCost κ S (h.get i) then
        h.set i { h.get i with vector := .empty }
      else
        let h := h.set j (toVector S (h.get j))
        match (h.get j).vector.value with
        | none => h
        | some w => h.set i { h.get i with vector := { (h.get i).vector with
            pending := (h.get i).vector.pending ++ [(m, w)], cost := (h.get i).vector.cost + κ.add } }

/-- `ChainVector::record` for the approximate caches of the chains `i` and `j`, chain_vector.cc:167-202. -/
def approximateRecord (κ : Cost) (S : ChainSurface T K) (m : Move) (i j : ℕ) (h : Heap T K) : Heap T K :=
  match (h.get i).approximateVector.value with
  | none => h
  | some _ =>
    match (h.get j).approximateVector.value with
    | none => h.set i { h.get i with approximateVector := .empty }
    | some _ =>
      if (h.get j).approximateVector.cost + (h.get i).approximateVector.cost + κ.copyArb + κ.addArb >
          recomputeCostArb κ S (h.get i) then
        h.set i { h.get i with approximateVector := .empty }
      else
        let h := h.set j (toApproximate S (h.get j))
        match (h.get j).approximateVector.value with
        | none => h
        | some w => h.set i { h.get i with approximateVector := { (h.get i).approximateVector with
            pending := (h.get i).approximateVector.pending ++ [(m, w)],
            cost := (h.get i).approximateVector.cost + κ.addArb } }

/-- Adds to the coefficient of the edge of a half edge, chain.cc:106-107, 214-215. -/
def bump (coefficients : ℕ → ℤ) (e : ℕ) : ℕ → ℤ :=
  Function.update coefficients (e / 2) (coefficients (e / 2) + if e = 2 * (e / 2) then 1 else -1)

/-- What can be done with chains. -/
inductive Op where
  /-- `Chain(surface)` -/
  | zero
  /-- `Chain(surface, halfEdge)` -/
  | halfEdge (e : ℕ)
  /-- the copy of a chain -/
  | copy (i : ℕ)
  /-- `chains[i] += e` -/
  | addHalfEdge (i e : ℕ)
  /-- `chains[i] -= e` -/
  | subHalfEdge (i e : ℕ)
  /-- `chains[i] += chains[j]` (or `std::move(chains[j])`) -/
  | add (i j : ℕ)
  /-- `chains[i] -= chains[j]` (or `std::move(chains[j])`) -/
  | sub (i j : ℕ)
  /-- `-chains[i]` -/
  | neg (i : ℕ)
  /-- `chains[i] *= c` -/
  | mul (i : ℕ) (c : ℤ)
  /-- converts `chains[i]` to a vector -/
  | toVector (i : ℕ)
  /-- converts `chains[i]` to an approximate vector -/
  | toApproximate (i : ℕ)

/-- The result of an operation; `undefined` if a chain is used that does not exist or a half edge which is not in the
surface. New chains are appended to the heap.

* `zero`: chain.cc:42-45, 200-206.
* `halfEdge`: chain.cc:47-50, 208-216.
* `copy`: chain.cc:218-225; the caches are computed by conversions of the original chain, chain_vector.cc:100-102.
* `addHalfEdge`, `subHalfEdge`: chain.cc:104-118.
* `add`, `sub`: chain.cc:120-158.
* `neg`: chain.cc:97-102.
* `mul`: chain.cc:171-178. The caches are not updated.
* `toVector`, `toApproximate`: chain.cc:66-74. -/
def step (κ : Cost) (S : ChainSurface T K) (h : Heap T K) : Op → Except Err (Heap T K)
  | .zero => .ok (h.push ⟨fun _ => 0, .empty, .empty⟩)
  | .halfEdge e =>
    if e < 2 * S.size then .ok (h.push ⟨bump (fun _ => 0) e, .of (S.vec e), .of (S.approx e)⟩) else .error .undefined
  | .copy i =>
    if i < h.n then
      let h := h.set i (toVector S (h.get i))
      let v := (h.get i).vector
      let h := h.set i (toApproximate S (h.get i))
      let w := (h.get i).approximateVector
      .ok (h.push ⟨(h.get i).coefficients, { v with pending := [], cost := 0 }, { w with pending := [], cost := 0 }⟩)
    else .error .undefined
  | .addHalfEdge i e =>
    if i < h.n ∧ e < 2 * S.size then
      let c := { h.get i with coefficients := bump (h.get i).coefficients e }
      .ok (h.set i (approximateAddHalfEdge κ S e (vectorAddHalfEdge κ S e c)))
    else .error .undefined
  | .subHalfEdge i e =>
    if i < h.n ∧ e < 2 * S.size then
      let c := { h.get i with coefficients := bump (h.get i).coefficients (neg e) }
      .ok (h.set i (approximateAddHalfEdge κ S (neg e) (vectorAddHalfEdge κ S (neg e) c)))
    else .error .undefined
  | .add i j =>
    if i < h.n ∧ j < h.n then
      let h := h.set i { h.get i with
        coefficients := fun k => (h.get i).coefficients k + (h.get j).coefficients k }
      .ok (approximateRecord κ S .add i j (vectorRecord κ S .add i j h))
    else .error .undefined
  | .sub i j =>
    if i < h.n ∧ j < h.n then
      let h := h.set i { h.get i with
        coefficients := fun k => (h.get i).coefficients k - (h.get j).coefficients k }
      .ok (approximateRecord κ S .sub i j (vectorRecord κ S .sub i j h))
    else .error .undefined
  | .neg i =>
    if i < h.n then
      let k := h.n
      let h := h.push ⟨fun _ => 0, .empty, .empty⟩
      let h := h.set k { h.get k with coefficients := fun l => (h.get k).coefficients l - (h.get i).coefficients l }
      .ok (approximateRecord κ S .sub k i (vectorRecord κ S .sub k i h))
    else .error .undefined
  | .mul i c =>
    if i < h.n then .ok (h.set i { h.get i with coefficients := fun k => (h.get i).coefficients k * c })
    else .error .undefined
  | .toVector i => if i < h.n then .ok (h.set i (toVector S (h.get i))) else .error .undefined
  | .toApproximate i => if i < h.n then .ok (h.set i (toApproximate S (h.get i))) else .error .undefined

/-- A history of operations. -/
def run (κ : Cost) (S : ChainSurface T K) : List Op → Heap T K → Except Err (Heap T K)
  | [], h => .ok h
  | op :: ops, h => (step κ S h op).bind (run κ S ops)

/-- The program start: there are no chains. -/
def Heap.init : Heap T K := ⟨0, fun _ => ⟨fun _ => 0, .empty, .empty⟩⟩

/-- `operator<(Bound)`, chain.cc:81-87; the chain is converted to an approximate vector, then to a vector. -/
def ltBound (S : ChainSurface T K) (A : Option (Approx T K)) (c : ChainObj T K) (b : Bound) : Option Bool :=
  let c := toApproximate S c
  match c.approximateVector.value with
  | none => none
  | some w =>
    match w.ltBoundArb S.A b with
    | some r => some r
    | none => match (toVector S c).vector.value with
      | none => none
      | some v => some (v.ltBound A b)

/-- `operator>(Bound)`, chain.cc:89-95. -/
def gtBound (S : ChainSurface T K) (A : Option (Approx T K)) (c : ChainObj T K) (b : Bound) : Option Bool :=
  let c := toApproximate S c
  match c.approximateVector.value with
  | none => none
  | some w =>
    match w.gtBoundArb S.A b with
    | some r => some r
    | none => match (toVector S c).vector.value with
      | none => none
      | some v => some (v.gtBound A b)

/-- `operator[](const HalfEdge&)`, chain.cc:52-64. -/
def coefficient (c : ChainObj T K) (e : ℕ) : ℤ :=
  if e = 2 * (e / 2) then c.coefficients (e / 2) else -c.coefficients (e / 2)

/-- `operator bool`, chain.cc:76-79. -/
def nonzero (S : ChainSurface T K) (c : ChainObj T K) : Bool :=
  !(List.range S.size).all fun i => decide (c.coefficients i = 0)

/-- `operator==` for chains on the same surface: whether the difference is zero, chain.cc:160-169. -/
def beq (S : ChainSurface T K) (c d : ChainObj T K) : Bool :=
  !nonzero S { c with coefficients := fun k => c.coefficients k - d.coefficients k }

/-- `findNext`, chain_iterator.cc:78-87. The position is `pos + 1`, since it can be `-1` in the code. -/
def findNext (S : ChainSurface T K) (c : ChainObj T K) : ℕ → ℕ → ℕ
  | 0, pos => pos
  | fuel + 1, pos => if pos < S.size ∧ c.coefficients pos = 0 then findNext S c fuel (pos + 1) else pos

/-- Iterating from `begin()` to `end()`, chain_iterator.cc:34-96: the edges and coefficients reported. The iterator is at
the end when its position is the number of edges. -/
def iterate (S : ChainSurface T K) (c : ChainObj T K) : ℕ → ℕ → List (ℕ × ℤ)
  | 0, _ => []
  | fuel + 1, pos =>
    let pos := findNext S c (S.size + 1) pos
    if pos = S.size then [] else (pos, c.coefficients pos) :: iterate S c fuel (pos + 1)

/-- The hash of a coefficient, chain.cc:245-254: the value if it fits a machine word, otherwise the lowest limb of the
absolute value. -/
def hashCoefficient (x : ℤ) : ℕ :=
  if -2 ^ 63 ≤ x ∧ x < 2 ^ 63 then (x % 2 ^ 64).toNat else x.natAbs % 2 ^ 64

/-- `hash`, chain.cc:243-261, for an arbitrary way to combine hashes. -/
def hash (S : ChainSurface T K) (combine : ℕ → ℕ → ℕ) (c : ChainObj T K) : ℕ :=
  (List.range (S.size - 1)).foldl (fun r i => combine r (hashCoefficient (c.coefficients (i + 1))))
    (hashCoefficient (c.coefficients 0))

end Chain

end Verif
