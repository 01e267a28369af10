import Verif.Model.Vertical
import Verif.Model.Path

/-!
# Contours

libflatsurf/src/contour_component.cc, contour_component_state.cc, contour_decomposition_state.cc, and the contours in
interval_exchange_transformation.cc.

In C++ contour decompositions are built from a `FlatTriangulationCollapsed`, i.e., vertical edges have been collapsed. This is
modelled for surfaces without vertical edges, where nothing has to be collapsed. Values of the vertical are not cached here, see
`Vertical.largeAt` for the caches.
-/

namespace Verif.Contour

open Vertical

variable {T : Type} [CommRing T] [LinearOrder T]
variable {K : Type*} [Field K] [LinearOrder K] [IsStrictOrderedRing K]

variable (S : FlatTri T) (A : Option (Approx T K)) (dbg : Bool)

/-- `makeContour`, contour_component.cc:176-199. The list is what has been written to `target`. -/
def makeContour (v : Vec T) : ℕ → HE → Option (Except Err (List HE))
  | 0, _ => none
  | fuel + 1, source =>
    if dbg ∧ Vec.ccw A v (S.vec source) = .collinear then some (.error .invalidArgument)
    else if dbg ∧ Vec.ccw A v (S.vec source) ≠ .clockwise then some (.error .invalidArgument)
    else match classifyFace S dbg v (fuel + 1) source with
      | none => none
      | some (.error err) => some (.error err)
      | some (.ok .backward) =>
        match makeContour v fuel (neg (S.tri.previousInFace source)) with
        | none => none
        | some (.error err) => some (.error err)
        | some (.ok first) =>
          match makeContour v fuel (neg (S.tri.nextInFace source)) with
          | none => none
          | some (.error err) => some (.error err)
          | some (.ok second) => some (.ok (first ++ second))
      | some (.ok .forward) => some (.ok [source])
      | some (.ok .collapsedToTwoFaces) => some (.ok [source])
      | some (.ok _) => some (.error .logicError)

/-- The lambda `length` in vertical.cc:68-71. -/
def length (v : Vec T) (e : HE) : T :=
  let ret := projectPerpendicular v (S.vec e)
  if ret > 0 then ret else -ret

/-- `large`, vertical.cc:64-79. -/
def large (v : Vec T) (e : HE) : Bool :=
  decide (length S v e ≥ length S v (S.tri.nextInFace e)) &&
  decide (length S v e ≥ length S v (S.tri.previousInFace e)) &&
  decide (length S v e ≥ length S v (S.tri.nextInFace (neg e))) &&
  decide (length S v e ≥ length S v (S.tri.previousInFace (neg e)))

/-- `ContourComponentState`, impl/contour_component_state.hpp:32-48. -/
structure Component where
  halfEdges : List HE
  large : HE
  topEdges : List HE
  bottomEdges : List HE
deriving DecidableEq, Repr

/-- The constructor of `ContourComponentState`, contour_component_state.cc:40-71. The half edges of the component are given in
the order in which they are iterated over. Dereferencing the end of the set of half edges is undefined. -/
def makeComponent (v : Vec T) (fuel : ℕ) (halfEdges : List HE) : Option (Except Err Component) :=
  match halfEdges.find? (large S v) with
  | none => some (.error .undefined)
  | some l =>
    let l := if Vec.ccw A v (S.vec l) = .counterclockwise then neg l else l
    if dbg ∧ Vec.ccw A v (S.vec l) ≠ .clockwise then some (.error .logicError)
    else match makeContour S A dbg v fuel l with
      | none => none
      | some (.error err) => some (.error err)
      | some (.ok top) =>
        match makeContour S A dbg (-v) fuel (neg l) with
        | none => none
        | some (.error err) => some (.error err)
        | some (.ok bottom) => some (.ok ⟨halfEdges, l, (top.map neg).reverse, (bottom.map neg).reverse⟩)

/-- The loop in contour_decomposition_state.cc:43-49. -/
def makeComponents (v : Vec T) (fuel : ℕ) : List (List HE) → Option (Except Err (List Component))
  | [] => some (.ok [])
  | c :: cs =>
    match makeComponent S A dbg v fuel c with
    | none => none
    | some (.error err) => some (.error err)
    | some (.ok d) =>
      match makeComponents v fuel cs with
      | none => none
      | some (.error err) => some (.error err)
      | some (.ok ds) => some (.ok (d :: ds))

/-- `components` in contour_decomposition_state.cc:43-49. -/
def decompose (v : Vec T) (fuel : ℕ) : Option (Except Err (List Component)) :=
  match components S A v fuel with
  | none => none
  | some cs => makeComponents S A dbg v fuel cs

/-- `perimeter`, contour_component.cc:86-107, as half edges. -/
def Component.perimeter (c : Component) : List HE := c.bottomEdges ++ c.topEdges

/-- `area2`, contour_component.cc:120-123. -/
def area2 (c : Component) : T := Vec.area2 (c.perimeter.map S.vec)

/-- What follows a half edge in a list; dereferencing the end is undefined. -/
def after (l : List HE) (e : HE) : Except Err HE :=
  match l[l.idxOf e + 1]? with
  | some x => .ok x
  | none => .error .undefined

/-- What precedes a half edge in a list; going before the start is undefined. -/
def before (l : List HE) (e : HE) : Except Err HE :=
  if l.idxOf e = 0 then .error .undefined
  else match l[l.idxOf e - 1]? with
    | some x => .ok x
    | none => .error .undefined

/-- The first element of a vector; this is undefined when there is none. -/
def first (l : List HE) : Except Err HE := match l.head? with | some x => .ok x | none => .error .undefined

/-- The last element of a vector; this is undefined when there is none. -/
def last (l : List HE) : Except Err HE := match l.getLast? with | some x => .ok x | none => .error .undefined

/-- `nextInPerimeter`, contour_component.cc:130-151. -/
def Component.nextInPerimeter (c : Component) (e : HE) : Except Err HE := do
  if e = (← last c.bottomEdges) then return (← first c.topEdges)
  if e = (← last c.topEdges) then return (← first c.bottomEdges)
  if e ∈ c.bottomEdges then return (← after c.bottomEdges e)
  if e ∈ c.topEdges then return (← after c.topEdges e)
  throw .logicError

/-- `previousInPerimeter`, contour_component.cc:153-173. -/
def Component.previousInPerimeter (c : Component) (e : HE) : Except Err HE := do
  if e = (← first c.bottomEdges) then return (← last c.topEdges)
  if e = (← first c.topEdges) then return (← last c.bottomEdges)
  if e ∈ c.bottomEdges then return (← before c.bottomEdges e)
  if e ∈ c.topEdges then return (← before c.topEdges e)
  throw .logicError

/-- The lambda `connected` in interval_exchange_transformation.cc:216-220. -/
def chained : List HE → Except Err Bool
  | a :: b :: l =>
    match S.tri.source (neg a), S.tri.source b with
    | some v, some w => if FlatTri.sameVertex v w then chained (b :: l) else .ok false
    | _, _ => .error .undefined
  | _ => .ok true

/-- The constructors of `IntervalExchangeTransformation`, interval_exchange_transformation.cc:59-82 and 184-226. The
result are the contours at the top and at the bottom that are passed on to intervalxt. `contour.end() - 1` is undefined for an
empty contour. -/
def iet (v : Vec T) (fuel : ℕ) (l : HE) : Option (Except Err (List HE × List HE)) :=
  if !large S v l then some (.error .invalidArgument)
  else match makeContour S A dbg v fuel l with
    | none => none
    | some (.error err) => some (.error err)
    | some (.ok top) =>
      match makeContour S A dbg (-v) fuel (neg l) with
      | none => none
      | some (.error err) => some (.error err)
      | some (.ok bottom) =>
        let bottom := bottom.reverse.map neg
        if dbg ∧ bottom.toFinset ≠ top.toFinset then some (.error .undefined)
        else if ¬ top.Perm bottom then some (.error .invalidArgument)
        else if top = [] then some (.error .undefined)
        else match chained S top with
          | .error err => some (.error err)
          | .ok false => some (.error .invalidArgument)
          | .ok true =>
            match chained S bottom with
            | .error err => some (.error err)
            | .ok false => some (.error .invalidArgument)
            | .ok true => some (.ok (top, bottom))

end Verif.Contour
