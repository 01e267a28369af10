import Verif.Model.FlatTriangulation
import Verif.Model.QuadraticPolynomial

/-!
# Shifting half edges

Model of `FlatTriangulation::operator+`, flat_triangulation.cc:78-312, up to the point where half edges have to be flipped or collapsed.
What happens to the surface then is not modelled.
-/

namespace Verif

/-- What has to be done to shift the half edges of a surface. -/
inductive ShiftPlan (T : Type) where
  /-- One of these half edges has to be flipped first, flat_triangulation.cc:198-241. -/
  | flips (halfEdges : List HE)
  /-- These half edges have to be collapsed, flat_triangulation.cc:242-311. -/
  | collapses (halfEdges : List HE)
  /-- The codomain of the deformation, flat_triangulation.cc:288-290, when nothing collapses. -/
  | shifted (codomain : FlatTri T)

namespace FlatTri

variable {T : Type} [CommRing T] [LinearOrder T]
variable {K : Type*} [Field K] [LinearOrder K] [IsStrictOrderedRing K]
variable {K' : Type*} [Field K'] [LinearOrder K'] [IsStrictOrderedRing K']

/-- The body of the first loop, flat_triangulation.cc:106-120: whether the half edge collapses. -/
def shiftCollapses (A : Option (Approx T K)) (S : FlatTri T) (shift : HE → Vec T) (e : HE) : Except Err Bool :=
  if (shift e).nonzero then
    if Vec.ccw A (S.vec e) (shift e) = .collinear then
      match Vec.orientation A (S.vec e) (S.vec e + shift e) with
      | .same => .ok false
      | .opposite => .error .invalidArgument
      | .orthogonal => .ok true
    else .ok false
  else .ok false

/-- The determinant, flat_triangulation.cc:133-136, where `e` and `g` are consecutive half edges at a vertex. -/
def shiftDet (S : FlatTri T) (shift : HE → Vec T) (e g : HE) : Quadratic T where
  a := (shift e).x * (shift g).y - (shift g).x * (shift e).y
  b := (shift e).x * (S.vec g).y - (shift g).x * (S.vec e).y + (S.vec e).x * (shift g).y - (S.vec g).x * (shift e).y
  c := (S.vec e).x * (S.vec g).y - (S.vec g).x * (S.vec e).y

/-- The loop in `vertex_hits_interior`, flat_triangulation.cc:157-189, for the vectors `v` and `w` of two half edges and their shifts. The
arithmetic and the approximation of the root at the first, second, ... precision are given by `A` and `t`. The scalar product is always
computed at `ARB_PRECISION_FAST`, see vector.cc:292, with the arithmetic `F`. The result is `none` when `fuel` precisions do not
suffice. -/
def shiftHits (F : Approx T K) (A : ℕ → Approx T K) (t : ℕ → Ball K) (dbg : Bool) (v sv w sw : Vec T) : ℕ → ℕ → Option (Except Err Bool)
  | 0, _ => none
  | fuel + 1, n =>
    let at_ (x s : T) : Ball K := (A n).add ((A n).arb x) ((A n).mul (t n) ((A n).arb s))
    let d := F.add (F.mul (at_ v.x sv.x) (at_ w.x sw.x)) (F.mul (at_ v.y sv.y) (at_ w.y sw.y))
    match d.gt (Ball.exact 0) with
    | none => shiftHits F A t dbg v sv w sw fuel (n + 1)
    | some true => some (.ok false)
    | some false =>
      if d.eq (Ball.exact 0) = some true then some (.error (if dbg then .logicError else .undefined)) else some (.ok true)

/-- The body of the second loop, flat_triangulation.cc:126-194: whether the half edge opposite to the corner of `e` has to be flipped. -/
def shiftFlips (F : Approx T K) (A : ℕ → Approx T K) (root : Quadratic T → ℕ → Ball K) (dbg : Bool) (fuel : ℕ) (S : FlatTri T) (shift : HE → Vec T)
    (collapsing : List HE) (e : HE) : Option (Except Err Bool) :=
  let g := S.tri.nextAtVertex e
  let det := S.shiftDet shift e g
  if dbg ∧ ¬ 0 < det.eval 0 then some (.error .logicError)
  else if det.positive then some (.ok false)
  else if e ∈ collapsing ∨ neg e ∈ collapsing ∨ g ∈ collapsing ∨ neg g ∈ collapsing then some (.ok false)
  else shiftHits F A (root det) dbg (S.vec e) (shift e) (S.vec g) (shift g) fuel 0

/-- The second loop for all vertices. -/
def shiftFlipsLoop (F : Approx T K) (A : ℕ → Approx T K) (root : Quadratic T → ℕ → Ball K) (dbg : Bool) (fuel : ℕ) (S : FlatTri T) (shift : HE → Vec T)
    (collapsing : List HE) : List HE → Option (Except Err (List HE))
  | [] => some (.ok [])
  | e :: l => (shiftFlips F A root dbg fuel S shift collapsing e).bind fun
    | .error err => some (.error err)
    | .ok b => (shiftFlipsLoop F A root dbg fuel S shift collapsing l).map fun r => r.map fun l =>
      if b then S.tri.nextInFace e :: l else l

/-- The first loop for all vertices. -/
def shiftCollapsesLoop (A : Option (Approx T K)) (S : FlatTri T) (shift : HE → Vec T) : List HE → Except Err (List HE)
  | [] => .ok []
  | e :: l => do
    let b ← S.shiftCollapses A shift e
    let r ← shiftCollapsesLoop A S shift l
    return if b then e :: r else r

/-- `operator+`, flat_triangulation.cc:78-312. Simplification: in C++, the loops are run for one vertex after the other; here, the first
loop is run for all vertices before the second loop is run for all vertices. Since the first loop runs through all half edges at a vertex
this makes no difference for the result. All half edges that might have to be flipped are returned and not only the ones that have to be
flipped first. -/
def shiftPlan (A₀ : Option (Approx T K')) (F : Approx T K) (A : ℕ → Approx T K) (root : Quadratic T → ℕ → Ball K) (dbg : Bool) (fuel : ℕ) (S : FlatTri T)
    (shift : HE → Vec T) : Option (Except Err (ShiftPlan T)) :=
  match S.shiftCollapsesLoop A₀ shift S.tri.halfEdges with
  | .error err => some (.error err)
  | .ok collapsing => (shiftFlipsLoop F A root dbg fuel S shift collapsing S.tri.halfEdges).map fun r => r.bind fun flips =>
    if flips ≠ [] then .ok (.flips flips)
    else if collapsing ≠ [] then .ok (.collapses collapsing)
    else do
      let C ← S.tri.clone dbg
      return .shifted (← ofFunction A₀ dbg C fun e => S.vec e + shift e)

end FlatTri

end Verif
