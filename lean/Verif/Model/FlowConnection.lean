import Verif.Model.FlowTriangulation

/-!
# The connections on the perimeters of a flow decomposition

Model of libflatsurf/src/flow_connection.cc. The perimeters of the components are given, they are provided by intervalxt. A connection
of a decomposition consists of the position of its component and the connection itself. The cache for the negative is left out.
-/

namespace Verif.FlowTriangulation

/-- `vertical`, `parallel`, and `antiparallel`, flow_connection.cc:46-59. -/
def Kind.vertical : Kind → Bool
  | .parallel => true
  | .antiparallel => true
  | .bottom => false
  | .top => false

/-- The kind with the opposite sign, impl/flow_connection.impl.hpp:38-43. -/
def Kind.opposite : Kind → Kind
  | .parallel => .antiparallel
  | .antiparallel => .parallel
  | .bottom => .top
  | .top => .bottom

/-- `find` in `operator-`, flow_connection.cc:80-87. (The assertion holds since only vertical connections are searched elsewhere.) -/
def findIn (search : HE) (perimeter : List Connection) : Option Connection := perimeter.find? fun c => decide (c.key = search)

/-- The loop over the components in `operator-`, flow_connection.cc:93-97. -/
def findAny (search : HE) : ℕ → List (List Connection) → Option (ℕ × Connection)
  | _, [] => none
  | i, perimeter :: rest => match findIn search perimeter with
    | some c => some (i, c)
    | none => findAny search (i + 1) rest

/-- The search in `operator-`, flow_connection.cc:89-98. -/
def findNegative (perimeters : List (List Connection)) (component : ℕ) (c : Connection) : Option (ℕ × Connection) :=
  if c.kind.vertical then findAny (neg c.key) 0 perimeters
  else match perimeters[component]? with
    | none => none
    | some perimeter => match findIn (neg c.key) perimeter with
      | none => none
      | some d => some (component, d)

/-- `operator-`, flow_connection.cc:76-105. The kind of the negative is checked before it is checked that there is a negative. -/
def negative (dbg : Bool) (perimeters : List (List Connection)) (component : ℕ) (c : Connection) : Except Err (ℕ × Connection) :=
  match findNegative perimeters component c with
  | none => .error .undefined
  | some d => if dbg && decide (d.2.kind ≠ c.kind.opposite) then .error .logicError else .ok d

/-- `boundary`, flow_connection.cc:71-74. -/
def boundary (dbg : Bool) (perimeters : List (List Connection)) (component : ℕ) (c : Connection) : Except Err Bool :=
  if c.kind.vertical then match negative dbg perimeters component c with
    | .error err => .error err
    | .ok d => .ok (decide (d.1 ≠ component))
  else .ok false

/-- The loop of `previousInPerimeter`, flow_connection.cc:110-116. -/
def previousFrom (dbg : Bool) (c : Connection) : Connection → List Connection → Except Err Connection
  | _, [] => .error (if dbg then .logicError else .undefined)
  | previous, x :: rest => if x.key = c.key then .ok previous else previousFrom dbg c x rest

/-- `previousInPerimeter`, flow_connection.cc:107-118. -/
def previousInPerimeter (dbg : Bool) (perimeter : List Connection) (c : Connection) : Except Err Connection :=
  match perimeter.getLast? with
  | none => .error (if dbg then .logicError else .undefined)
  | some last => previousFrom dbg c last perimeter

/-- The loop of `nextInPerimeter`, flow_connection.cc:123-130. -/
def nextFrom (dbg : Bool) (c first : Connection) : List Connection → Except Err Connection
  | [] => .error (if dbg then .logicError else .undefined)
  | x :: rest => if x.key = c.key then .ok (rest.headD first) else nextFrom dbg c first rest

/-- `nextInPerimeter`, flow_connection.cc:120-132. -/
def nextInPerimeter (dbg : Bool) (perimeter : List Connection) (c : Connection) : Except Err Connection :=
  match perimeter with
  | [] => .error (if dbg then .logicError else .undefined)
  | first :: _ => nextFrom dbg c first perimeter

end Verif.FlowTriangulation
