import Verif.Model.HalfEdge
import Mathlib.Logic.Function.Basic
import Mathlib.Data.List.Rotate
import Mathlib.Data.List.Dedup

/-!
# Permutations

Model of `libflatsurf/src/permutation.cc`.

A `Permutation` holds two arrays `permutation` and `inverse`. An array of size `n` is modelled by a total function;
cells from `n` on do not exist in C++ and are represented by the identity. Accesses to such cells are `undefined`
wherever a caller can provoke them.
-/

namespace Verif

open Function

/-- `Permutation<T>`, permutation.hpp: the arrays `permutation` (`fwd`) and `inverse` (`inv`) and their common size.
`fwd i` is `operator()` (permutation.cc:131-134), `inv i` is `preimage` (permutation.cc:136-139). -/
structure Perm where
  size : ℕ
  fwd : HE → HE
  inv : HE → HE

namespace Perm

/-- `Permutation(const std::vector<T>& permutation)`, permutation.cc:64-72, for a vector without default constructed
entries. The loop in lines 68-69 evaluates `(*this)(v)` for each entry `v` before anything is checked, so an entry
outside the range is an out of bounds access. Then `check` (permutation.cc:41-57) counts how often each element is
hit. -/
def ofImages (l : List HE) : Except Err Perm :=
  let n := l.length
  if ∀ v ∈ l, v < n then
    let fwd := fun i => l.getD i i
    let inv := l.foldl (fun inv v => update inv (fwd v) v) fwd
    if ∃ i ∈ List.range n, l.count i = 0 then .error .invalidArgument
    else if ∃ i ∈ List.range n, l.count i ≠ 1 then .error .invalidArgument
    else .ok ⟨n, fwd, inv⟩
  else .error .undefined

/-- `Permutation(const std::vector<T>& permutation)` where entries may still be the default constructed half edge
(`none`, index `SIZE_MAX`). -/
def ofVector (l : List (Option HE)) : Except Err Perm :=
  match l.mapM id with
  | none => .error .undefined
  | some l => ofImages l

/-- The loops in permutation.cc:90-97 and 103-110 which write `data[index(a)] = b`. Entries out of range are only
excluded by an assertion. -/
def fill (n : ℕ) (l : List (HE × HE)) : Except Err (List (Option HE)) :=
  l.foldlM (fun data ab =>
    if ab.1 < n ∧ ab.2 < n then .ok (data.set ab.1 (some ab.2)) else .error .undefined) (List.replicate n none)

/-- `Permutation(const std::vector<std::pair<T, T>>&)` and `Permutation(const std::unordered_map<T, T>&)`,
permutation.cc:87-111. -/
def ofPairs (l : List (HE × HE)) : Except Err Perm := do
  let data ← fill l.length l
  ofVector data

/-- The assignments made for one cycle in permutation.cc:79-82, `data[cycle[i]] = cycle[(i + 1) % size]`. -/
def cyclePairs (c : List HE) : List (HE × HE) := c.zip (c.rotate 1)

/-- `Permutation(const std::vector<std::vector<T>>& cycles)`, permutation.cc:74-85. -/
def ofCycles (cycles : List (List HE)) : Except Err Perm := do
  let n := (cycles.map List.length).sum
  let data ← fill n (cycles.flatMap cyclePairs)
  ofVector data

/-- `domain()`, permutation.cc:146-149 (returns the images). -/
def domain (p : Perm) : List HE := (List.range p.size).map p.fwd

/-- The do-while loop of `cycles()`, permutation.cc:159-165, and of `cycle()`, permutation.cc:209-218, started at `s`
and ending when `t` is reached. `none` if that does not happen within the given number of steps. -/
def walk (p : Perm) (t : HE) : ℕ → HE → Option (List HE)
  | 0, _ => none
  | k + 1, s => if p.fwd s = t then some [s] else (walk p t k (p.fwd s)).map (s :: ·)

/-- `cycle(first)`, permutation.cc:208-219. -/
def cycle (p : Perm) (first : HE) : Option (List HE) := walk p first p.size first

/-- The outer loop of `cycles()`, permutation.cc:155-168, with the set `seen`. -/
def cyclesLoop (p : Perm) : List HE → List HE → Option (List (List HE))
  | _, [] => some []
  | seen, t :: ts =>
    if t ∈ seen then cyclesLoop p seen ts
    else do
      let c ← cycle p t
      let cs ← cyclesLoop p (c ++ seen) ts
      return c :: cs

/-- `cycles()`, permutation.cc:151-171. -/
def cycles (p : Perm) : Option (List (List HE)) := cyclesLoop p [] p.domain

/-- `drop(items)`, permutation.cc:173-183. Applying the permutation to an item outside of it is undefined. -/
def drop (p : Perm) (items : List HE) : Except Err Perm :=
  if ∃ i ∈ items, p.size ≤ i then .error .undefined
  else if ∃ i ∈ items, p.fwd i ∉ items then .error .invalidArgument
  else if ∃ i ∈ items, i + items.length < p.size then .error .invalidArgument
  else
    let n := p.size - items.length
    .ok ⟨n, fun i => if i < n then p.fwd i else i, fun i => if i < n then p.inv i else i⟩

/-- `operator~`, permutation.cc:185-188. -/
def inverse (p : Perm) : Except Err Perm := ofImages ((List.range p.size).map p.inv)

/-- `operator*=(const Permutation&)`, permutation.cc:190-198. -/
def mul (p q : Perm) : Except Err Perm :=
  if p.size ≠ q.size then .error .invalidArgument
  else ofImages (q.domain.map p.fwd)

/-- `trivial()`, permutation.cc:200-206. -/
def trivial (p : Perm) : Bool := p.domain.all fun v => p.fwd v == v

/-- `operator==`, permutation.cc:255-258. -/
def beq (p q : Perm) : Bool := p.domain == q.domain

/-- The two assignments in the loop at permutation.cc:246-247, in this order. -/
def assignRight (p : Perm) (x y : HE) : Perm :=
  let fwd := update p.fwd x (p.fwd y)
  ⟨p.size, fwd, update p.inv (fwd y) x⟩

/-- The loop at permutation.cc:245-250. -/
def mulCycleLoop (tmp : HE) : Perm → List HE → Perm
  | p, [] => p
  | p, [x] => ⟨p.size, update p.fwd x tmp, update p.inv tmp x⟩
  | p, x :: y :: c => mulCycleLoop tmp (assignRight p x y) (y :: c)

/-- `operator*=(Permutation& self, const std::vector<T>& cycle)`, permutation.cc:238-253. -/
def mulCycle (p : Perm) (c : List HE) : Except Err Perm :=
  if c.dedup.length ≤ 1 then .ok p
  else if c.dedup.length ≠ c.length then .error .invalidArgument
  else if ∃ x ∈ c, p.size ≤ x then .error .undefined
  else match c with
    | [] => .ok p
    | c0 :: _ => .ok (mulCycleLoop (p.fwd c0) p c)

/-- The two assignments in the loop at permutation.cc:229-230, in this order. -/
def assignLeft (p : Perm) (x y : HE) : Perm :=
  let inv := update p.inv x (p.inv y)
  ⟨p.size, update p.fwd (inv y) x, inv⟩

/-- The loop at permutation.cc:228-233. -/
def cycleMulLoop (tmp : HE) : Perm → List HE → Perm
  | p, [] => p
  | p, [x] => ⟨p.size, update p.fwd tmp x, update p.inv x tmp⟩
  | p, x :: y :: c => cycleMulLoop tmp (assignLeft p x y) (y :: c)

/-- `operator*=(const std::vector<T>& cycle, Permutation& self)`, permutation.cc:221-236. -/
def cycleMul (c : List HE) (p : Perm) : Except Err Perm :=
  if c.dedup.length ≤ 1 then .ok p
  else if c.dedup.length ≠ c.length then .error .invalidArgument
  else if ∃ x ∈ c, p.size ≤ x then .error .undefined
  else match c with
    | [] => .ok p
    | c0 :: _ => .ok (cycleMulLoop (p.inv c0) p c)

end Perm

end Verif
