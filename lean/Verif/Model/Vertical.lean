import Verif.Model.FlatTriangulation
import Verif.Model.SaddleAngle

/-!
# Vertical directions (libflatsurf/src/vertical.cc)
-/

namespace Verif

/-- `operator-(ORIENTATION)`, ccw.cc:40, where the values are SAME = 1, ORTHOGONAL = 0 and OPPOSITE = -1. -/
def Orientation.neg : Orientation → Orientation
  | .same => .opposite
  | .opposite => .same
  | .orthogonal => .orthogonal

/-- `Vertical::TRIANGLE`, flatsurf/vertical.hpp:45-51. -/
inductive Triangle where
  | backward | forward | collapsedToTwoFaces | leftVertical | rightVertical
deriving DecidableEq, Repr

/-- `ImplementationOf<Vertical>`, impl/vertical.impl.hpp:50-59. The horizontal is determined by the vertical. The cache
for lengths is never used and omitted. Caches for edges are indexed by the index of the edge. -/
structure Vertical (T : Type) where
  vertical : Vec T
  parallel : HE → Option T
  perpendicular : HE → Option T
  ccw : HE → Option CCW
  orientation : HE → Option Orientation
  large : ℕ → Option Bool

namespace Vertical

variable {T : Type} [CommRing T] [LinearOrder T]
variable {K : Type*} [Field K] [LinearOrder K] [IsStrictOrderedRing K]

/-- The constructor, vertical.cc:41-44 and 194-221. -/
def make (v : Vec T) : Except Err (Vertical T) :=
  if !v.nonzero then .error .invalidArgument
  else .ok ⟨v, fun _ => none, fun _ => none, fun _ => none, fun _ => none, fun _ => none⟩

/-! ### Vectors -/

/-- `projectPerpendicular(const Vector&)`, vertical.cc:88-91, where the horizontal is set in vertical.cc:198. -/
def projectPerpendicular (v w : Vec T) : T := Vec.dot (-v.perpendicular) w

/-- `project(const Vector&)`, vertical.cc:100-103. -/
def project (v w : Vec T) : T := Vec.dot v w

/-! ### Queries, which fill the caches -/

variable (S : FlatTri T)

/-- `projectPerpendicular(HalfEdge)`, vertical.cc:81-86. -/
def projectPerpendicularAt (e : HE) : StateM (Vertical T) T := do
  let V ← get
  match V.perpendicular e with
  | some x => return x
  | none =>
    let x := projectPerpendicular V.vertical (S.vec e)
    set { V with perpendicular := Tracked.oddSet (Option.map (- ·)) V.perpendicular e (some x) }
    return x

/-- `project(HalfEdge)`, vertical.cc:93-98. -/
def projectAt (e : HE) : StateM (Vertical T) T := do
  let V ← get
  match V.parallel e with
  | some x => return x
  | none =>
    let x := project V.vertical (S.vec e)
    set { V with parallel := Tracked.oddSet (Option.map (- ·)) V.parallel e (some x) }
    return x

/-- `orientation(HalfEdge)`, vertical.cc:105-115. -/
def orientationAt (A : Option (Approx T K)) (e : HE) : StateM (Vertical T) Orientation := do
  let V ← get
  match V.orientation e with
  | some x => return x
  | none =>
    let x := Vec.orientation A V.vertical (S.vec e)
    set { V with orientation := Tracked.oddSet (Option.map Orientation.neg) V.orientation e (some x) }
    return x

/-- `ccw(HalfEdge)`, vertical.cc:117-127. -/
def ccwAt (A : Option (Approx T K)) (e : HE) : StateM (Vertical T) CCW := do
  let V ← get
  match V.ccw e with
  | some x => return x
  | none =>
    let x := Vec.ccw A V.vertical (S.vec e)
    set { V with ccw := Tracked.oddSet (Option.map CCW.opposite) V.ccw e (some x) }
    return x

/-- The lambda `length` in vertical.cc:68-71. -/
def lengthAt (e : HE) : StateM (Vertical T) T := do
  let ret ← projectPerpendicularAt S e
  return if ret > 0 then ret else -ret

/-- `large`, vertical.cc:64-79. The conjunction stops at the first condition that does not hold. -/
def largeAt (e : HE) : StateM (Vertical T) Bool := do
  match (← get).large (e / 2) with
  | some x => return x
  | none =>
    let len ← lengthAt S e
    let x ← (do
      if !decide (len ≥ (← lengthAt S (S.tri.nextInFace e))) then return false
      if !decide (len ≥ (← lengthAt S (S.tri.previousInFace e))) then return false
      if !decide (len ≥ (← lengthAt S (S.tri.nextInFace (neg e)))) then return false
      return decide (len ≥ (← lengthAt S (S.tri.previousInFace (neg e)))))
    modify fun V => { V with large := Function.update V.large (e / 2) (some x) }
    return x

/-- The handlers after a flip, vertical.cc:199-220, which are called once the surface `S` has been flipped. -/
def afterFlip (V : Vertical T) (e : HE) : Vertical T :=
  let clear (large : ℕ → Option Bool) (x : HE) := Function.update large (x / 2) none
  { V with
    parallel := Tracked.oddSet (Option.map (- ·)) V.parallel e none
    perpendicular := Tracked.oddSet (Option.map (- ·)) V.perpendicular e none
    ccw := Tracked.oddSet (Option.map CCW.opposite) V.ccw e none
    orientation := Tracked.oddSet (Option.map Orientation.neg) V.orientation e none
    large := [e, S.tri.nextInFace e, S.tri.previousInFace e, S.tri.nextInFace (neg e),
      S.tri.previousInFace (neg e)].foldl clear V.large }

/-! ### Histories -/

/-- What can be done with a surface and its vertical. Other queries of the surface do not change it. -/
inductive Op where
  | flip (e : HE)
  | projectPerpendicular (e : HE)
  | project (e : HE)
  | orientation (e : HE)
  | ccw (e : HE)
  | large (e : HE)
deriving DecidableEq

/-- Run one operation. When a flip throws, the handlers are not called. -/
def step (A : Option (Approx T K)) (dbg : Bool) : FlatTri T × Vertical T → Op → FlatTri T × Vertical T
  | (S, V), .flip e =>
    match S.flip A dbg e with
    | (S', .ok ()) => (S', V.afterFlip S' e)
    | (S', .error _) => (S', V)
  | (S, V), .projectPerpendicular e => (S, (projectPerpendicularAt S e V).2)
  | (S, V), .project e => (S, (projectAt S e V).2)
  | (S, V), .orientation e => (S, (orientationAt S A e V).2)
  | (S, V), .ccw e => (S, (ccwAt S A e V).2)
  | (S, V), .large e => (S, (largeAt S e V).2)

/-- Run a history. -/
def run (A : Option (Approx T K)) (dbg : Bool) (s : FlatTri T × Vertical T) (ops : List Op) : FlatTri T × Vertical T :=
  ops.foldl (step A dbg) s

/-! ### Faces

The following does not depend on caches, i.e., we use the values that have not been cached. -/

/-- `classifyFace`, vertical.cc:129-162. The C++ recursion is unbounded. -/
def classifyFace (dbg : Bool) (v : Vec T) : ℕ → HE → Option (Except Err Triangle)
  | 0, _ => none
  | fuel + 1, face =>
    let next := S.tri.nextInFace face
    let previous := S.tri.previousInFace face
    let perp := projectPerpendicular v (S.vec face)
    let a := projectPerpendicular v (S.vec next)
    let b := projectPerpendicular v (S.vec previous)
    if next = previous then
      if dbg ∧ perp + a ≠ 0 then some (.error .undefined) else some (.ok .collapsedToTwoFaces)
    else if dbg ∧ perp + a + b ≠ 0 then some (.error .undefined)
    else if perp = 0 then
      if dbg ∧ ¬ (a ≠ 0 ∧ b ≠ 0) then some (.error .undefined) else classifyFace dbg v fuel next
    else if perp < 0 then classifyFace dbg v fuel next
    else if a = 0 then some (.ok .rightVertical)
    else if b = 0 then some (.ok .leftVertical)
    else if a > 0 then some (.ok .forward)
    else if b > 0 then some (.ok .forward)
    else some (.ok .backward)

/-- `ImplementationOf<Vertical>::visit`, vertical.cc:223-241, with a visitor that always returns true. The recursion is
bounded by `fuel`. -/
def visit (A : Option (Approx T K)) (v : Vec T) : ℕ → HE → List HE → Option (List HE)
  | 0, _, _ => none
  | fuel + 1, start, component =>
    if start ∈ component then some component
    else
      let component := start :: component
      if Vec.ccw A v (S.vec start) = .collinear then some component
      else do
        let component ← visit A v fuel (neg start) component
        let component ← visit A v fuel (S.tri.nextInFace start) component
        visit A v fuel (S.tri.previousInFace start) component

/-- `components`, vertical.cc:46-62, the loop over the half edges. -/
def componentsLoop (A : Option (Approx T K)) (v : Vec T) (fuel : ℕ) : List HE → List HE → List (List HE) →
    Option (List (List HE))
  | [], _, components => some components
  | start :: rest, done, components =>
    if start ∈ done then componentsLoop A v fuel rest done components
    else do
      let component ← visit S A v fuel start []
      componentsLoop A v fuel rest (component ++ done) (components ++ [component])

/-- `components`, vertical.cc:46-62. -/
def components (A : Option (Approx T K)) (v : Vec T) (fuel : ℕ) : Option (List (List HE)) :=
  componentsLoop S A v fuel S.tri.halfEdges [] []

end Vertical

end Verif
