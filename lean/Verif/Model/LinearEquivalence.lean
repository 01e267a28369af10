import Verif.Model.Equivalence

/-!
# Equivalence modulo linear maps (libflatsurf/src/linear_equivalence.cc, linear_equivalence_walker.cc)
-/

namespace Verif

/-- A 2x2 matrix, row by row. -/
@[ext] structure Mat (T : Type) where
  a : T
  b : T
  c : T
  d : T

variable {T : Type}

namespace Mat

/-- The determinant. -/
def det [CommRing T] (M : Mat T) : T := M.a * M.d - M.b * M.c

/-- `applyMatrix` of vectors, with the matrix given as a tuple. -/
def apply [CommRing T] (M : Mat T) (v : Vec T) : Vec T := v.applyMatrix M.a M.b M.c M.d

end Mat

/-- `LinearEquivalence::GROUP`, impl/linear_equivalence.hpp. -/
inductive LinearGroup
  | trivial
  | sl
  | gl
  deriving DecidableEq

namespace LinearEquivalence

variable [CommRing T] [LinearOrder T]

/-- `div`, linear_equivalence.cc:40-55. Here `quot` is the division of the ring. For exact real numbers, where the check is
made by `truediv`, the quotient is anything if the division is not possible. -/
def div (quot : T → T → T) (numerator denominator : T) : Except Err T :=
  if quot numerator denominator * denominator = numerator then .ok (quot numerator denominator) else .error .logicError

/-- `orthonormalize`, linear_equivalence.cc:161-171, in terms of the vectors of the two half edges. If the vectors are
collinear, an assertion fails in debug builds; otherwise there is a division by zero. -/
def orthonormalize (dbg : Bool) (quot : T → T → T) (v w : Vec T) : Except Err (Mat T) := do
  let det := v.x * w.y - v.y * w.x
  if det = 0 then
    throw (if dbg then .logicError else .undefined)
  let a ← div quot w.y det
  let b ← div quot w.x det
  let c ← div quot v.y det
  let d ← div quot v.x det
  return ⟨a, -b, -c, d⟩

/-- `orthogonalize`, linear_equivalence.cc:146-159. -/
def orthogonalize (dbg : Bool) (quot : T → T → T) (v w : Vec T) : Except Err (Mat T) := do
  let M ← orthonormalize dbg quot v w
  let det := M.a * M.d - M.b * M.c
  let det := if det < 0 then -det else det
  let c ← div quot M.c det
  let d ← div quot M.d det
  return ⟨M.a, M.b, c, d⟩

/-- `normalize`, linear_equivalence.cc:128-144, without custom normalization functions. -/
def normalize (dbg : Bool) (quot : T → T → T) (group : LinearGroup) (v w : Vec T) : Except Err (Mat T) :=
  match group with
  | .trivial => .ok ⟨1, 0, 0, 1⟩
  | .gl => orthonormalize dbg quot v w
  | .sl => orthogonalize dbg quot v w

/-- A walker, impl/linear_equivalence_walker.hpp: the normalizing matrix, the orientation and the underlying walker. -/
abbrev LinearWalker (T : Type) := Mat T × Bool × Walker

/-- The constructor of walkers, linear_equivalence_walker.cc:29-34. -/
def makeWalker (start : HE) (M : Mat T) : LinearWalker T := (M, decide (0 < M.det), Walker.make start)

/-- The walkers for a half edge, linear_equivalence.cc:111-123. -/
def walkersAt (dbg : Bool) (quot : T → T → T) (group : LinearGroup) (oriented : Bool) (S : FlatTri T) (start : HE) :
    Except Err (List (LinearWalker T)) := do
  let M ← normalize dbg quot group (S.vec start) (S.vec (S.tri.nextAtVertex start))
  if dbg ∧ ¬ 0 < M.det then
    throw .logicError
  if oriented then
    return [makeWalker start M]
  let N ← normalize dbg quot group (S.vec start) (S.vec (S.tri.previousAtVertex start))
  if dbg ∧ ¬ N.det < 0 then
    throw .logicError
  return [makeWalker start M, makeWalker start N]

/-- All the walkers, linear_equivalence.cc:109-123. -/
def walkers (dbg : Bool) (quot : T → T → T) (group : LinearGroup) (oriented : Bool) (S : FlatTri T) :
    Except Err (List (LinearWalker T)) := do
  let ws ← S.tri.halfEdges.mapM (walkersAt dbg quot group oriented S)
  return ws.flatten

/-- `step`, linear_equivalence_walker.cc:66-81. -/
def step (S : FlatTri T) (fuel : ℕ) (w : LinearWalker T) : Option (Option (List ℤ × Vec T) × LinearWalker T) :=
  (w.2.2.step (Walker.advance S.tri w.2.1) fuel).map fun r =>
    (r.1.map fun c => (c, w.1.apply (S.vec (neg (r.2.labeled.getD (r.2.steps - 1) 0)))), (w.1, w.2.1, r.2))

/-- `cmp`, linear_equivalence_walker.cc:42-64. -/
def cmp (lhs rhs : List ℤ × Vec T) : Ordering :=
  match Walker.cmp lhs.1 rhs.1 with
  | .lt => .lt
  | .gt => .gt
  | .eq =>
    if lhs.2.x < rhs.2.x then .lt
    else if lhs.2.x > rhs.2.x then .gt
    else if lhs.2.y < rhs.2.y then .lt
    else if lhs.2.y > rhs.2.y then .gt
    else .eq

/-- `code`, linear_equivalence.cc:107-126. The two components of words are kept together, i.e., words are lists of
pairs instead of pairs of lists of the same length. -/
def word (dbg : Bool) (quot : T → T → T) (group : LinearGroup) (oriented : Bool) (S : FlatTri T) (fuel : ℕ) :
    Option (Except Err (List (List ℤ × Vec T) × List (LinearWalker T))) :=
  match walkers dbg quot group oriented S with
  | .error e => some (.error e)
  | .ok ws => (EquivalenceWalker.word (step S fuel) cmp fuel ws).map .ok

/-- `EquivalenceClass`, equivalence_class.cc:49-58 with equivalence_walker.hpp:115-124, for linear equivalence; see
`combinatorialClass`. -/
def linearClass (dbg : Bool) (quot : T → T → T) (group : LinearGroup) (oriented : Bool) (S : FlatTri T) (fuel : ℕ) :
    Option (Except Err (List (List ℤ × Vec T) × ℕ)) :=
  (word dbg quot group oriented S fuel).map fun r => do
    let r ← r
    if r.2 = [] then
      throw (if dbg then .logicError else .undefined)
    if ¬ ∀ w ∈ r.2, ∀ e ∈ S.tri.halfEdges, (w.2.2.relabeling e).isSome then
      throw (if dbg then .logicError else .undefined)
    return (r.1, r.2.length)

end LinearEquivalence

end Verif
