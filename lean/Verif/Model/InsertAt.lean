import Verif.Model.FlatTriangulation

/-!
# Inserting a vertex

Model of `FlatTriangulation::insertAt` in libflatsurf/src/flat_triangulation.cc. The loops and the recursion have a fuel
argument, the result is `none` when out of fuel. The assertions with the C macro `assert` are modelled as a `logicError` in
debug builds. The deformation returned is a composition of one deformation for each flip and a deformation for the
insertion; we model it as the list of half edges that have been flipped and the surfaces before and after the insertion.
-/

namespace Verif.FlatTri

variable {T : Type} [CommRing T] [LinearOrder T]
variable {K : Type} [Field K] [LinearOrder K] [IsStrictOrderedRing K]

/-- The conditions on `e` in `assert` and `canFlip`, flat_triangulation.cc:537 and 540-543: it is not one of the sides of
the sector at `n`. -/
def notAtSector (S : FlatTri T) (n e : HE) : Bool :=
  decide (e ≠ n) && decide (e ≠ neg n) && decide (e ≠ S.tri.nextAtVertex n) && decide (e ≠ neg (S.tri.nextAtVertex n))

/-- `canFlip`, flat_triangulation.cc:539-546. The last two lines are the same as in `convex`. -/
def insertCanFlip (A : Option (Approx T K)) (S : FlatTri T) (n e : HE) : Bool :=
  S.notAtSector n e &&
  decide (Vec.ccw A (S.vec (S.tri.previousAtVertex e)) (S.vec (S.tri.nextAtVertex e)) = .counterclockwise) &&
  decide (Vec.ccw A (S.vec (S.tri.previousAtVertex (neg e))) (S.vec (S.tri.nextAtVertex (neg e))) = .counterclockwise)

/-- The half edge that is flipped first when `e` cannot be flipped, flat_triangulation.cc:550-557. -/
def insertBlocking (A : Option (Approx T K)) (dbg : Bool) (S : FlatTri T) (v : Vec T) (e : HE) : Except Err HE :=
  if Vec.ccw A v (S.vec (S.tri.previousAtVertex e)) ≠ .counterclockwise then .ok (neg (S.tri.nextAtVertex (neg e)))
  else if dbg && decide (Vec.ccw A v (S.vec (S.tri.nextAtVertex (neg e))) = .clockwise) then .error .logicError
  else .ok (S.tri.previousAtVertex e)

/-- The function `flip` with its loop, flat_triangulation.cc:536-565; `start` is set when the function has just been
called. Returns the surface after the flips and the half edges that have been flipped. -/
def insertFlip (A : Option (Approx T K)) (dbg : Bool) (n : HE) (v : Vec T) :
    ℕ → Bool → FlatTri T → HE → Option (Except Err (FlatTri T × List HE))
  | 0, _, _, _ => none
  | fuel + 1, start, S, e =>
    if dbg && start && !S.notAtSector n e then some (.error .logicError)
    else if S.insertCanFlip A n e then
      match S.flip A dbg e with
      | (S', .ok ()) => some (.ok (S', [e]))
      | (_, .error err) => some (.error err)
    else match insertBlocking A dbg S v e with
      | .error err => some (.error err)
      | .ok g => match insertFlip A dbg n v fuel true S g with
        | none => none
        | some (.error err) => some (.error err)
        | some (.ok (S', es)) => match insertFlip A dbg n v fuel false S' e with
          | none => none
          | some (.error err) => some (.error err)
          | some (.ok (S'', es')) => some (.ok (S'', es ++ es'))

/-- The loop that moves on to the next half edge, flat_triangulation.cc:571-572. -/
def insertTurn (A : Option (Approx T K)) (S : FlatTri T) (v : Vec T) : ℕ → HE → Option HE
  | 0, _ => none
  | fuel + 1, n =>
    if Vec.ccw A (S.vec (S.tri.nextAtVertex n)) v ≠ .clockwise then insertTurn A S v fuel (S.tri.nextAtVertex n) else some n

/-- `check_orientation`, flat_triangulation.cc:502-511. -/
def insertCheck (A : Option (Approx T K)) (v w : Vec T) : Except Err Unit :=
  match Vec.orientation A (w - v) v with
  | .opposite => .error .invalidArgument
  | .orthogonal => .error .logicError
  | .same => .ok ()

/-- The loop that flips the half edges that are crossed, flat_triangulation.cc:515-574. -/
def insertSearch (A : Option (Approx T K)) (dbg : Bool) (v : Vec T) :
    ℕ → FlatTri T → HE → Option (Except Err (FlatTri T × List HE × HE))
  | 0, _, _ => none
  | fuel + 1, S, n =>
    if Vec.ccw A (S.vec n) v = .collinear then
      match insertCheck A v (S.vec n) with
      | .error err => some (.error err)
      | .ok () => some (.ok (S, [], n))
    else if dbg && decide (Vec.ccw A (S.vec n) v ≠ .counterclockwise) then some (.error .logicError)
    else if Vec.ccw A (S.vec (S.tri.nextInFace n)) (v - S.vec n) = .counterclockwise then some (.ok (S, [], n))
    else match insertFlip A dbg n v fuel true S (S.tri.nextInFace n) with
      | none => none
      | some (.error err) => some (.error err)
      | some (.ok (S', es)) =>
        if dbg && decide (Vec.ccw A (S'.vec n) v ≠ .counterclockwise) then some (.error .logicError)
        else match insertTurn A S' v fuel n with
          | none => none
          | some n' => match insertSearch A dbg v fuel S' n' with
            | none => none
            | some (.error err) => some (.error err)
            | some (.ok (S'', es', n'')) => some (.ok (S'', es ++ es', n''))

/-- `symmetric`, flat_triangulation.cc:576-579, when `x` is `e` or `-e`. -/
def insertSymmetric (x e : HE) (v : Vec T) : Vec T := if x = e then v else -v

/-- Inserting in the interior of a face, flat_triangulation.cc:585-597. -/
def insertInFace (A : Option (Approx T K)) (dbg : Bool) (S : FlatTri T) (n : HE) (v : Vec T) : Except Err (FlatTri T) := do
  let C ← S.tri.insertAt dbg n
  let a := neg (C.nextAtVertex n)
  let b := C.nextAtVertex a
  let c := C.nextAtVertex b
  ofFunction A dbg C (fun x =>
    if x = a ∨ x = neg a then insertSymmetric x a (-v)
    else if x = b ∨ x = neg b then insertSymmetric x b (S.vec n - v)
    else if x = c ∨ x = neg c then insertSymmetric x c (S.vec (S.tri.nextAtVertex n) - v)
    else S.vec x)

/-- Inserting on an edge, flat_triangulation.cc:608-625. -/
def insertOnEdge (A : Option (Approx T K)) (dbg : Bool) (S : FlatTri T) (n : HE) (v : Vec T) : Except Err (FlatTri T) := do
  let C ← S.tri.insertAt dbg n
  let a := neg (C.nextAtVertex n)
  match C.flip dbg n with
  | (_, .error err) => .error err
  | (C, .ok ()) =>
    let b := C.nextAtVertex a
    let c := C.nextAtVertex b
    let d := C.nextAtVertex c
    ofFunction A dbg C (fun x =>
      if x = a ∨ x = neg a then insertSymmetric x (neg a) v
      else if x = b ∨ x = neg b then insertSymmetric x b (S.vec (S.tri.previousAtVertex n) - v)
      else if x = c ∨ x = neg c then insertSymmetric x c (S.vec n - v)
      else if x = d ∨ x = neg d then insertSymmetric x d (S.vec (S.tri.nextAtVertex n) - v)
      else S.vec x)

/-- What `insertAt` produces: the half edges that have been flipped, the surface after the flips, the surface with the new
vertex, whether the vertex is in the interior of a face, the half edge `nextTo` before the insertion, and the value of
`nextTo` when the function returns. -/
structure Insertion (T : Type) where
  flips : List HE
  flipped : FlatTri T
  codomain : FlatTri T
  inFace : Bool
  at_ : HE
  nextTo : HE

/-- `insertAt`, flat_triangulation.cc:497-633. -/
def insertAt (A : Option (Approx T K)) (dbg : Bool) (fuel : ℕ) (S : FlatTri T) (n : HE) (v : Vec T) :
    Option (Except Err (Insertion T)) :=
  if S.tri.size ≤ n then some (.error .undefined)
  else if !S.inSector A n v then some (.error .invalidArgument)
  else match insertSearch A dbg v fuel S n with
    | none => none
    | some (.error err) => some (.error err)
    | some (.ok (S', es, n')) =>
      if Vec.ccw A (S'.vec n') v ≠ .collinear then
        if dbg && decide (Vec.ccw A (S'.vec n') v ≠ .counterclockwise) then some (.error .logicError)
        else match S'.insertInFace A dbg n' v with
          | .error err => some (.error err)
          | .ok S'' => some (.ok ⟨es, S', S'', true, n', n'⟩)
      else match S'.insertOnEdge A dbg n' v with
        | .error err => some (.error err)
        | .ok S'' => some (.ok ⟨es, S', S'', false, n', S'.tri.previousAtVertex n'⟩)

end Verif.FlatTri
