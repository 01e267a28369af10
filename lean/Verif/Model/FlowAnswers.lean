import Verif.Model.Vector
import Mathlib.Algebra.Order.Field.Rat

/-!
# The three-valued answers of flow decompositions (libflatsurf/src/flow_decomposition.cc, flow_component.cc)

How a surface is decomposed into components, which is for the most part done by the library intervalxt, is not modelled
here. A component is what the answers are computed from. The answers of boost's `tribool` are modelled by `Option Bool` with
`none` for `indeterminate`.
-/

namespace Verif

/-- `operator||` of `tribool`. -/
def Tribool.or : Option Bool → Option Bool → Option Bool
  | some true, _ => some true
  | _, some true => some true
  | some false, some false => some false
  | _, _ => none

/-- `operator&&` of `tribool`. -/
def Tribool.and : Option Bool → Option Bool → Option Bool
  | some false, _ => some false
  | _, some false => some false
  | some true, some true => some true
  | _, _ => none

/-- `operator!` of `tribool`. -/
def Tribool.not (x : Option Bool) : Option Bool := x.map Bool.not

/-- `operator==` of `tribool`, which is again a `tribool`: `(x && y) || (!x && !y)`. -/
def Tribool.eq (x y : Option Bool) : Option Bool :=
  Tribool.or (Tribool.and x y) (Tribool.and (Tribool.not x) (Tribool.not y))

/-- `operator!=` of `tribool`, which is again a `tribool`. -/
def Tribool.ne (x y : Option Bool) : Option Bool := Tribool.not (Tribool.eq x y)

/-- The conversion of a `tribool` to `bool` as in `if (x)`. -/
def Tribool.isTrue (x : Option Bool) : Bool := x == some true

/-- What the answers use of a `FlowComponent`: whether it is a cylinder, `cylinder()`, flow_component.cc:242-243, the first
entry of `holonomy()`, and `area2()`, flow_component.cc:262-265. -/
structure FlowPiece (T : Type) where
  cylinder : Option Bool
  holonomy0 : Vec T
  area2 : T

namespace FlowPiece

variable {T : Type} [CommRing T] [LinearOrder T]

/-- `circumferenceHolonomy()`, flow_component.cc:330-335. -/
def circumferenceHolonomy (c : FlowPiece T) : Except Err (Vec T) :=
  if Tribool.isTrue (Tribool.not c.cylinder) then .error .logicError else .ok c.holonomy0

/-- The loop in `hasCylinder()`, flow_decomposition.cc:118-122. -/
def hasCylinderLoop : List (FlowPiece T) → Option Bool → Option Bool
  | [], state => state
  | c :: cs, state =>
    let state := Tribool.or state c.cylinder
    if Tribool.isTrue state then some true else hasCylinderLoop cs state

/-- `hasCylinder()`, flow_decomposition.cc:115-123. -/
def hasCylinder (l : List (FlowPiece T)) : Option Bool := hasCylinderLoop l (some false)

/-- `completelyPeriodic()`, flow_decomposition.cc:125-132. -/
def completelyPeriodic : List (FlowPiece T) → Option Bool
  | [] => some true
  | c :: cs =>
    let state := c.cylinder
    if Tribool.isTrue (Tribool.ne state (some true)) then state else completelyPeriodic cs

/-- The first position where one of the lists is not zero, flow_decomposition.cc:149-151. -/
def firstNonzero : List ℚ → List ℚ → ℕ
  | u :: us, v :: vs => if u = 0 ∧ v = 0 then firstNonzero us vs + 1 else 0
  | _, _ => 0

/-- Whether the coefficients are proportional, flow_decomposition.cc:149-156. -/
def proportional (u v : List ℚ) : Bool :=
  let i0 := firstNonzero u v
  (List.range u.length).all fun i => decide (i < i0 + 1) || decide (u.getD i0 0 * v.getD i 0 = u.getD i 0 * v.getD i0 0)

/-- The loop in `parabolic()`, flow_decomposition.cc:138-158. -/
def parabolicLoop (coefficients : T → T → List ℚ × List ℚ) :
    List (FlowPiece T) → T → T → Option Bool → Except Err (Option Bool)
  | [], _, _, answer => .ok answer
  | c :: cs, a0, hnorm20, answer => do
    let state := c.cylinder
    if Tribool.isTrue (Tribool.eq state (some false)) then return some false
    let answer := Tribool.and answer state
    let h ← c.circumferenceHolonomy
    let hnorm2 := h.x * h.x + h.y * h.y
    let a := c.area2
    if hnorm20 = 0 then parabolicLoop coefficients cs a hnorm2 answer
    else
      let (u, v) := coefficients (a0 * hnorm2) (a * hnorm20)
      if proportional u v then parabolicLoop coefficients cs a0 hnorm20 answer else return some false

/-- `parabolic()`, flow_decomposition.cc:134-161, with the rational coefficients of two numbers with respect to some basis
as given by intervalxt. -/
def parabolic (coefficients : T → T → List ℚ × List ℚ) (l : List (FlowPiece T)) : Except Err (Option Bool) :=
  parabolicLoop coefficients l 0 0 (some true)

end FlowPiece

end Verif
