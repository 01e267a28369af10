import Verif.Model.CollapsedTurn
import Verif.Model.Contour

/-!
# Connections of the contours of collapsed surfaces

Model of libflatsurf/src/contour_connection.cc and of libflatsurf/src/contour_component.cc, continued. As in the model of
collapsed surfaces, saddle connections are given by their vectors. In particular, the assertions that paths are simple, that they are
closed, and about the angles between their segments (contour_component.cc:89-104, contour_connection.cc:111, 189) are not modelled.

The result `none` says that a loop has not ended after `fuel` rounds.
-/

namespace Verif.Collapsed

open Contour

variable {T : Type} [CommRing T] [LinearOrder T]
variable {K : Type*} [Field K] [LinearOrder K] [IsStrictOrderedRing K]

/-- Programs with loops that can throw. -/
abbrev Run (α : Type) := ExceptT Err Option α

/-- Programs without loops. -/
def total {α : Type} (x : Except Err α) : Run α := ExceptT.mk (some x)

/-- `components` in contour_decomposition_state.cc:43-49. -/
def components (A : Option (Approx T K)) (dbg : Bool) (C : Collapsed T) (fuel : ℕ) : Option (Except Err (List Component)) :=
  Contour.decompose ⟨C.tri, C.vec⟩ A dbg C.vertical fuel

/-- A `ContourConnection`, impl/contour_connection.impl.hpp:38-56. The component is an extra argument in the following. -/
structure Connection where
  halfEdge : HE
  top : Bool
deriving DecidableEq, Repr

/-- `makeTop`, contour_connection.cc:141-145. -/
def makeTop (A : Option (Approx T K)) (dbg : Bool) (C : Collapsed T) (e : HE) : Except Err Connection :=
  if dbg ∧ Vec.ccw A C.vertical (C.fromHalfEdge e) ≠ .counterclockwise then .error .logicError else .ok ⟨e, true⟩

/-- `makeBottom`, contour_connection.cc:148-152. -/
def makeBottom (A : Option (Approx T K)) (dbg : Bool) (C : Collapsed T) (e : HE) : Except Err Connection :=
  if dbg ∧ Vec.ccw A C.vertical (C.fromHalfEdge e) ≠ .clockwise then .error .logicError else .ok ⟨e, false⟩

/-- `nextInPerimeter`, contour_component.cc:130-151 and contour_connection.cc:121-124. -/
def nextInPerimeter (A : Option (Approx T K)) (dbg : Bool) (C : Collapsed T) (c : Component) (e : HE) : Except Err Connection := do
  if e = (← last c.bottomEdges) then return (← makeTop A dbg C (← first c.topEdges))
  if e = (← last c.topEdges) then return (← makeBottom A dbg C (← first c.bottomEdges))
  if e ∈ c.bottomEdges then return (← makeBottom A dbg C (← after c.bottomEdges e))
  if e ∈ c.topEdges then return (← makeTop A dbg C (← after c.topEdges e))
  throw .logicError

/-- `previousInPerimeter`, contour_component.cc:153-173 and contour_connection.cc:116-119. -/
def previousInPerimeter (A : Option (Approx T K)) (dbg : Bool) (C : Collapsed T) (c : Component) (e : HE) : Except Err Connection := do
  if e = (← first c.bottomEdges) then return (← makeTop A dbg C (← last c.topEdges))
  if e = (← first c.topEdges) then return (← makeBottom A dbg C (← last c.bottomEdges))
  if e ∈ c.bottomEdges then return (← makeBottom A dbg C (← before c.bottomEdges e))
  if e ∈ c.topEdges then return (← makeTop A dbg C (← before c.topEdges e))
  throw .logicError

/-- `operator==`, contour_connection.cc:132-138, for connections of the same component. -/
def Connection.eq (dbg : Bool) (x y : Connection) : Except Err Bool :=
  if dbg ∧ x.halfEdge = y.halfEdge ∧ x.top ≠ y.top then .error .logicError else .ok (decide (x.halfEdge = y.halfEdge))

/-- The assertions in contour_connection.cc:173 and 185. -/
def assertMeets (dbg : Bool) (C : Collapsed T) (x y : HE) : Except Err Unit :=
  if dbg then
    match chained ⟨C.tri, C.vec⟩ [x, y] with
    | .error err => .error err
    | .ok false => .error .logicError
    | .ok true => .ok ()
  else .ok ()

/-- The assertion in contour_connection.cc:161. -/
def assertNext (A : Option (Approx T K)) (dbg : Bool) (C : Collapsed T) (c : Component) (x y : Connection) : Except Err Unit :=
  if dbg then
    match nextInPerimeter A dbg C c x.halfEdge with
    | .error err => .error err
    | .ok z =>
      match y.eq dbg z with
      | .error err => .error err
      | .ok false => .error .logicError
      | .ok true => .ok ()
  else .ok ()

/-- `turn`, contour_connection.cc:160-192. -/
def turnTo (A : Option (Approx T K)) (dbg : Bool) (C : Collapsed T) (fuel : ℕ) (c : Component) (x y : Connection) : Run (List (Vec T)) := do
  total (assertNext A dbg C c x y)
  match x.top, y.top with
  | false, false => ExceptT.mk (C.turn fuel (C.tri.nextInFace x.halfEdge) y.halfEdge)
  | false, true =>
    total (assertMeets dbg C x.halfEdge y.halfEdge)
    let turn := C.cross (C.tri.nextInFace x.halfEdge)
    let more ← ExceptT.mk (C.turn fuel (C.tri.previousAtVertex (C.tri.nextInFace x.halfEdge)) (C.tri.nextInFace (neg y.halfEdge)))
    return turn ++ more
  | true, true =>
    let turn := C.cross (neg x.halfEdge)
    let more ← ExceptT.mk (C.turn fuel (C.tri.previousAtVertex (neg x.halfEdge)) (C.tri.nextInFace (neg y.halfEdge)))
    return turn ++ more
  | true, false =>
    total (assertMeets dbg C x.halfEdge y.halfEdge)
    let turn := C.cross (neg x.halfEdge)
    let more ← ExceptT.mk (C.turn fuel (C.tri.previousAtVertex (neg x.halfEdge)) y.halfEdge)
    return turn ++ more

/-- All connections are vertical with the given orientation. -/
def allVertical (A : Option (Approx T K)) (C : Collapsed T) (o : Orientation) (l : List (Vec T)) : Bool :=
  l.all fun k => decide (Vec.ccw A C.vertical k = .collinear ∧ Vec.orientation A C.vertical k = o)

/-- How the connections are distributed, contour_connection.cc:202-220. -/
def distribute (A : Option (Approx T K)) (C : Collapsed T) (x y : Connection) (l : List (Vec T)) : List (Vec T) × List (Vec T) :=
  match x.top, y.top with
  | false, false =>
    (l.takeWhile fun k => Vec.orientation A C.vertical k ≠ .opposite, l.dropWhile fun k => Vec.orientation A C.vertical k ≠ .opposite)
  | true, true =>
    (l.takeWhile fun k => Vec.orientation A C.vertical k ≠ .same, l.dropWhile fun k => Vec.orientation A C.vertical k ≠ .same)
  | _, _ => (l, [])

/-- `cross`, contour_connection.cc:194-243. -/
def crossTo (A : Option (Approx T K)) (dbg : Bool) (C : Collapsed T) (fuel : ℕ) (c : Component) (x y : Connection) :
    Run (List (Vec T) × List (Vec T)) := do
  let l ← turnTo A dbg C fuel c x y
  let r := distribute A C x y l
  if dbg ∧ !allVertical A C (if x.top then .opposite else .same) r.1 then throw .logicError
  if dbg ∧ !allVertical A C (if y.top then .same else .opposite) r.2 then throw .logicError
  return r

/-- `left`, contour_connection.cc:67-80. -/
def left (A : Option (Approx T K)) (dbg : Bool) (C : Collapsed T) (fuel : ℕ) (c : Component) (x : Connection) : Run (List (Vec T)) := do
  let l ←
    if x.top then do
      let y ← total (nextInPerimeter A dbg C c x.halfEdge)
      let r ← crossTo A dbg C fuel c x y
      pure r.1
    else do
      let y ← total (previousInPerimeter A dbg C c x.halfEdge)
      let r ← crossTo A dbg C fuel c y x
      pure r.2
  if dbg ∧ !allVertical A C .opposite l then throw .logicError
  return l

/-- `right`, contour_connection.cc:82-94. -/
def right (A : Option (Approx T K)) (dbg : Bool) (C : Collapsed T) (fuel : ℕ) (c : Component) (x : Connection) : Run (List (Vec T)) := do
  let l ←
    if x.top then do
      let y ← total (previousInPerimeter A dbg C c x.halfEdge)
      let r ← crossTo A dbg C fuel c y x
      pure r.2
    else do
      let y ← total (nextInPerimeter A dbg C c x.halfEdge)
      let r ← crossTo A dbg C fuel c x y
      pure r.1
  if dbg ∧ !allVertical A C .same l then throw .logicError
  return l

/-- `horizontal`, contour_connection.cc:60-64. -/
def horizontal (A : Option (Approx T K)) (dbg : Bool) (C : Collapsed T) (x : Connection) : Except Err (Vec T) :=
  let k := C.fromHalfEdge (if x.top then neg x.halfEdge else x.halfEdge)
  if dbg ∧ Vec.ccw A C.vertical k ≠ .clockwise then .error .logicError else .ok k

/-- `perimeter`, contour_connection.cc:96-113. -/
def connectionPerimeter (A : Option (Approx T K)) (dbg : Bool) (C : Collapsed T) (fuel : ℕ) (c : Component) (x : Connection) :
    Run (List (Vec T)) := do
  if x.top then
    let r ← right A dbg C fuel c x
    let h ← total (horizontal A dbg C x)
    let l ← left A dbg C fuel c x
    let p := r ++ [-h] ++ l
    if dbg ∧ p.any fun k => Vec.ccw A C.vertical k = .clockwise then throw .logicError
    return p
  else
    let l ← left A dbg C fuel c x
    let h ← total (horizontal A dbg C x)
    let r ← right A dbg C fuel c x
    let p := l ++ [h] ++ r
    if dbg ∧ p.any fun k => Vec.ccw A C.vertical k = .counterclockwise then throw .logicError
    return p

/-- `bottomContour`, `topContour` and `perimeterContour`, contour_component.cc:53-57, 65-69 and 77-83. -/
def perimeterContour (A : Option (Approx T K)) (dbg : Bool) (C : Collapsed T) (c : Component) : Except Err (List Connection) := do
  let bottom ← c.bottomEdges.mapM (makeBottom A dbg C)
  let top ← c.topEdges.mapM (makeTop A dbg C)
  return bottom ++ top

/-- The concatenation of the perimeters of some connections, contour_component.cc:61 and 73. -/
def concat (A : Option (Approx T K)) (dbg : Bool) (C : Collapsed T) (fuel : ℕ) (c : Component) : List Connection → Run (List (Vec T))
  | [] => pure []
  | x :: l => do
    let p ← connectionPerimeter A dbg C fuel c x
    let q ← concat A dbg C fuel c l
    return p ++ q

/-- `perimeter`, contour_component.cc:86-107. -/
def perimeter (A : Option (Approx T K)) (dbg : Bool) (C : Collapsed T) (fuel : ℕ) (c : Component) : Run (List (Vec T)) := do
  let l ← total (perimeterContour A dbg C c)
  concat A dbg C fuel c l

/-- `area2`, contour_component.cc:123-125. -/
def componentArea2 (A : Option (Approx T K)) (dbg : Bool) (C : Collapsed T) (fuel : ℕ) (c : Component) : Run T := do
  let l ← perimeter A dbg C fuel c
  total (polygonArea2 dbg l)

/-- `area`, contour_component.cc:115-120. -/
def componentArea (A : Option (Approx T K)) (dbg : Bool) (C : Collapsed T) (fuel : ℕ) (c : Component) : Run T := do
  let a ← componentArea2 A dbg C fuel c
  return 3 * a

end Verif.Collapsed
