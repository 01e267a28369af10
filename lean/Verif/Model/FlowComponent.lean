import Verif.Model.FlowTriangulation

/-!
# Flow components

A flow component is given by its perimeter, i.e., the list of its `FlowConnection`s, see `Verif.Model.FlowTriangulation`. A connection
is given by its saddle connection, here a number `key`, and its kind. The perimeter itself is computed by intervalxt, which is not
modelled.
-/

namespace Verif.FlowComponent

open Verif Vec Vertical FlowTriangulation

variable {T : Type} [CommRing T] [LinearOrder T]

/-- `area2`, flow_component.cc:281-284. -/
def area2 (vec : HE → Vec T) (perimeter : List Connection) : T := Vec.area2 (perimeter.map fun c => vec c.key)

/-- `widthRelative`, flow_component.cc:291-301. -/
def widthRelative (vec : HE → Vec T) (v : Vec T) (perimeter : List Connection) : T :=
  perimeter.foldl (fun sum c =>
    let width := projectPerpendicular v (vec c.key)
    if width > 0 then sum + width else sum) 0

/-- The first loop in `holonomy`, flow_component.cc:307-314. The map `toSaddleConnection` and `pos`. -/
def positions (vec : HE → Vec T) : List Connection → (HE → Option (Vec T)) → Vec T → (HE → Option (Vec T)) × Vec T
  | [], m, pos => (m, pos)
  | c :: cs, m, pos =>
    let m := if c.kind = .bottom then Function.update m c.key (some pos) else m
    let pos := pos + vec c.key
    let m := if c.kind = .top then Function.update m c.key (some pos) else m
    positions vec cs m pos

/-- The second loop in `holonomy`, flow_component.cc:318-327. `at` throws `std::out_of_range` which is not told from a logic error. -/
def translations (dbg : Bool) (m : HE → Option (Vec T)) : List Connection → Except Err (List (Vec T))
  | [] => .ok []
  | c :: cs =>
    if c.kind = .parallel ∨ c.kind = .antiparallel then translations dbg m cs
    else match m (neg c.key), m c.key with
      | some p, some q =>
        if dbg ∧ p - q = 0 then .error .logicError
        else do
          return (p - q) :: (← translations dbg m cs)
      | _, _ => .error .logicError

/-- `holonomy`, flow_component.cc:303-330. `bottom` is the bottom of the component which is provided by intervalxt. -/
def holonomy (dbg : Bool) (vec : HE → Vec T) (bottom perimeter : List Connection) : Except Err (List (Vec T)) :=
  let (m, pos) := positions vec perimeter (fun _ => none) 0
  if dbg ∧ pos ≠ 0 then .error .logicError else translations dbg m bottom

/-- `circumferenceHolonomy`, flow_component.cc:332-337. `cylinder` is the result of `cylinder()`; when it is indeterminate, `not`
does not hold. -/
def circumferenceHolonomy (dbg : Bool) (cylinder : Option Bool) (vec : HE → Vec T) (bottom perimeter : List Connection) :
    Except Err (Vec T) :=
  if cylinder = some false then .error .logicError
  else match holonomy dbg vec bottom perimeter with
    | .error e => .error e
    | .ok [] => .error .undefined
    | .ok (h :: _) => .ok h

/-- The maximum of a list, `rx::max`; `none` for the empty list. -/
def maximum : List T → Option T
  | [] => none
  | x :: l => some (l.foldl max x)

/-- `heightRelative`, flow_component.cc:344-350. Dereferencing an empty optional is undefined. -/
def heightRelative (dbg : Bool) (vec : HE → Vec T) (v : Vec T) (bottom perimeter : List Connection) : Except Err T :=
  match holonomy dbg vec bottom perimeter with
  | .error e => .error e
  | .ok l => match maximum (l.map fun h => project v (-h)) with
    | none => .error .undefined
    | some x => .ok (-x)

end Verif.FlowComponent
