import Verif.Model.Triangulation

/-!
# Slits

Model of `FlatTriangulationCombinatorics::slit`, `libflatsurf/src/flat_triangulation_combinatorics.cc:158-201`.
-/

namespace Verif.Tri

open Verif Function

/-- The loop in flat_triangulation_combinatorics.cc:166-176, for one `h`. The map `vertices` is a partial function. -/
def slitStep (T : Tri) (e ee : HE) (m : HE → Option HE) (h : HE) : HE → Option HE :=
  if h = e then update (update m e (some ee)) ee (some (T.vertices.fwd e))
  else if T.vertices.fwd h = neg e then update (update m h (some (neg ee))) (neg ee) (some (neg e))
  else update m h (some (T.vertices.fwd h))

/-- The search in flat_triangulation_combinatorics.cc:180-186 and 188-194, started at `c` and ending at `stop`. The
result is the first boundary half edge, if any. `none` if the loop does not end after the given number of steps. -/
def findBoundary (T : Tri) (stop : HE) : ℕ → HE → Option (Option HE)
  | 0, _ => none
  | k + 1, c =>
    if c = stop then some none
    else if T.boundary c then some (some c)
    else findBoundary T stop k (T.vertices.fwd c)

/-- The map `vertices` after the split of the vertex at `e`, flat_triangulation_combinatorics.cc:182-183. -/
def slitSplit (T : Tri) (e ee : HE) (m : HE → Option HE) : Option HE → HE → Option HE
  | none => m
  | some b => update (update m b (some ee)) e (some (T.vertices.fwd b))

/-- The entries of the map `vertices`. The order is unspecified in C++ and has no effect. -/
def mapEntries (m : HE → Option HE) (n : ℕ) : List (HE × HE) :=
  (List.range n).filterMap fun k => (m k).map fun v => (k, v)

/-- `slit`, flat_triangulation_combinatorics.cc:158-201. With assertions, `nextAtVertex` rejects boundary half
edges, so that line 170 throws if there are any. The second split (lines 190-191) is the first one with `-ee` and `-e`
in place of `e` and `ee`. -/
def slit (dbg : Bool) (T : Tri) (e : HE) : Except Err Tri := do
  if T.size ≤ e ∨ T.size ≤ neg e then throw .undefined
  if T.boundary e ∨ T.boundary (neg e) then throw .invalidArgument
  let ee := 2 * (T.size / 2)
  if dbg ∧ T.hasBoundary then throw .invalidArgument
  let m := T.halfEdges.foldl (slitStep T e ee) fun _ => none
  let b1 ← match findBoundary T e T.size (T.vertices.fwd e) with
    | some b => pure b
    | none => throw .undefined
  let m := slitSplit T e ee m b1
  let b2 ← match findBoundary T (neg e) T.size (T.vertices.fwd (neg e)) with
    | some b => pure b
    | none => throw .undefined
  let m := slitSplit T (neg ee) (neg e) m b2
  let vertices ← Perm.ofPairs (mapEntries m (T.size + 2))
  make dbg vertices (vertices.domain.filter fun x => x = e ∨ x = neg ee ∨ (x ≠ ee ∧ T.boundary x))

end Verif.Tri
