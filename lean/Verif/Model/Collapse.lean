import Verif.Model.Tracked
import Mathlib.Data.Finset.Card

/-!
# Collapsing an edge of a triangulation

Model of `collapse` in libflatsurf/src/flat_triangulation_combinatorial.cc. Edges are given by their index, the half edges of the
edge `d` are `2 d` and `2 d + 1`. Observers are not part of this model. When there is an error, the state of the surface
afterwards is not modelled.
-/

namespace Verif.Tri

/-- `dropEdges`, flat_triangulation_combinatorial.cc:273-293. -/
def dropEdges (T : Tri) (e : HE) : Finset ℕ :=
  let x := T.nextInFace e
  let y := neg (T.previousInFace (neg e))
  let drop : Finset ℕ := {e / 2}
  let drop := if x = neg (T.previousInFace e) then drop else insert (x / 2) drop
  if T.nextInFace e = neg (T.nextInFace (neg e)) ∧ neg (T.previousInFace (neg e)) = T.previousInFace e then drop
  else if y = T.nextInFace (neg e) then drop
  else insert (y / 2) drop

/-- The loop that decreases `maxEdge`, flat_triangulation_combinatorial.cc:304-305. -/
def lastKept (drop : Finset ℕ) : ℕ → ℕ
  | 0 => 0
  | m + 1 => if m ∈ drop then lastKept drop m else m + 1

/-- The variables of the loop in flat_triangulation_combinatorial.cc:302-316. -/
structure Renaming where
  tri : Tri
  e : HE
  drop : Finset ℕ
  last : ℕ

/-- The body of the loop in flat_triangulation_combinatorial.cc:303-316, where `n` is the number of edges. -/
def renameStep (n : ℕ) (r : Renaming) (d : ℕ) : Except Err Renaming :=
  let last := lastKept r.drop r.last
  if d < n - r.drop.card then do
    let s := 2 * (last - 1)
    let tri ← r.tri.swap (2 * d) s
    let e := if 2 * d = r.e then s else if 2 * d + 1 = r.e then neg s else r.e
    return ⟨tri, e, insert (last - 1) (r.drop.erase d), last⟩
  else return ⟨r.tri, r.e, r.drop, last⟩

/-- How data attached to half edges is changed by the same step, tracked.cc:134-138, called from
flat_triangulation_combinatorial.cc:201. -/
def renameData {V : Type} (n : ℕ) (r : Renaming) (d : ℕ) (m : HE → V) : HE → V :=
  if d < n - r.drop.card then Tracked.swapHalfEdgeMap (2 * d) (2 * (lastKept r.drop r.last - 1)) m else m

/-- The edges in a set sorted by their indexes, flat_triangulation_combinatorial.cc:298-300; all indexes are less than `n`. -/
def sorted (n : ℕ) (drop : Finset ℕ) : List ℕ := (List.range n).filter (· ∈ drop)

/-- The edges that are going to be dropped are renamed such that they come last, flat_triangulation_combinatorial.cc:297-317. -/
def renameDropped (T : Tri) (e : HE) : Except Err Renaming :=
  (sorted (T.size / 2) (T.dropEdges e)).foldlM (renameStep (T.size / 2)) ⟨T, e, T.dropEdges e, T.size / 2⟩

/-- How data attached to half edges is changed while edges are renamed, flat_triangulation_combinatorial.cc:297-317 with
tracked.cc:134-138. -/
def renameAll {V : Type} (T : Tri) (e : HE) (m : HE → V) : Except Err (HE → V) := do
  let r ← (sorted (T.size / 2) (T.dropEdges e)).foldlM
    (fun (p : Renaming × (HE → V)) d => do
      let r ← renameStep (T.size / 2) p.1 d
      return (r, renameData (T.size / 2) p.1 d p.2))
    (⟨T, e, T.dropEdges e, T.size / 2⟩, m)
  return r.2

/-- How other tracked data is changed by the same step, where `swap` is the handler that is called before half edges are swapped. -/
def trackStep {X : Type} (swap : HE → HE → X → X) (n : ℕ) (r : Renaming) (d : ℕ) (x : X) : X :=
  if d < n - r.drop.card then swap (2 * d) (2 * (lastKept r.drop r.last - 1)) x else x

/-- How other tracked data is changed while edges are renamed, flat_triangulation_combinatorial.cc:297-317. The result also contains
the edges that are going to be erased. -/
def renameTracked {X : Type} (swap : HE → HE → X → X) (T : Tri) (e : HE) (x : X) : Except Err (Renaming × X) :=
  (sorted (T.size / 2) (T.dropEdges e)).foldlM
    (fun (p : Renaming × X) d => do
      let r ← renameStep (T.size / 2) p.1 d
      return (r, trackStep swap (T.size / 2) p.1 d p.2))
    (⟨T, e, T.dropEdges e, T.size / 2⟩, x)

/-- The first side of the face of `e` takes the place of the opposite of the other side, flat_triangulation_combinatorial.cc:335-344. -/
def closeFirst (f : Perm) (e : HE) : Except Err Perm := do
  let a' := f.inv e
  let x' := neg (f.fwd e)
  let p := f.inv x'
  let x := f.fwd e
  let f ← f.mulCycle [a', x']
  let f ← f.mulCycle [p, x]
  f.mulCycle [f.inv e, e]

/-- The same for the other face, flat_triangulation_combinatorial.cc:346-355; here `e` is `-collapse`. -/
def closeSecond (f : Perm) (e : HE) : Except Err Perm := do
  let c := f.fwd e
  let y := neg (f.inv e)
  let p := f.inv y
  let f ← f.mulCycle [c, y]
  let f ← f.mulCycle [p, e]
  f.mulCycle [f.inv e, e]

/-- `resetVertices`, flat_triangulation_combinatorial.cc:171-183. -/
def verticesOfFaces (f : Perm) : Except Err Perm :=
  if ∃ e ∈ f.domain, f.fwd e = e then .error .logicError
  else Perm.ofPairs (f.domain.map fun e => (e, if f.fwd e = neg e ∧ f.fwd (f.fwd e) = e then e else neg (f.inv e)))

/-- `collapse`, flat_triangulation_combinatorial.cc:256-382. The result is the surface and the returned pair. The assertions in
lines 374 and 377 abort the program; this is `undefined` here. The other assertions always hold. -/
def collapse (dbg : Bool) (T : Tri) (e : HE) : Except Err (Tri × HE × HE) :=
  if T.size ≤ e ∨ T.size ≤ neg e then .error .undefined
  else if T.boundary e ∨ T.boundary (neg e) then .error .logicError
  else if T.nextInFace (T.nextInFace (T.nextInFace e)) ≠ e ∨ T.nextInFace (T.nextInFace (T.nextInFace (neg e))) ≠ neg e then
    .error .logicError
  else do
    let r ← renameDropped T e
    let a := neg (r.tri.previousInFace r.e)
    let c := r.tri.nextInFace (neg r.e)
    let f ← closeFirst r.tri.faces r.e
    let f ← closeSecond f (neg r.e)
    let f ← f.drop ((sorted (T.size / 2) r.drop).flatMap fun d => [2 * d, 2 * d + 1])
    let v ← verticesOfFaces f
    match mkVertexes v with
    | none => .error .undefined
    | some vertexes =>
      if a / 2 ∈ r.drop then
        if dbg ∧ c / 2 ∈ r.drop then .error .undefined else .ok (⟨v, f, vertexes⟩, neg c, c)
      else if c / 2 ∈ r.drop then .ok (⟨v, f, vertexes⟩, a, neg a)
      else .ok (⟨v, f, vertexes⟩, a, c)

end Verif.Tri
