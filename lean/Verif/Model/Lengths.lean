import Verif.Model.HalfEdge
import Verif.Model.Vertical

/-!
# Lengths of the labels of an interval exchange transformation (libflatsurf/src/lengths.cc)

The interval exchange transformations themselves are part of the library intervalxt. What `Lengths` sees of them are the
contours of the components: for each label the connections to its left and the connections that have to be crossed, as
vectors. Saddle connections are modelled by their vectors; that the saddle connection exists in the surface, and where its
source and target are, is not modelled.
-/

namespace Verif

variable {T : Type} [CommRing T] [LinearOrder T]

/-- A half edge of a contour in intervalxt: its label, `left()`, and `cross()`, given by the vectors of the saddle
connections, i.e., of `FlowConnection::saddleConnection()`. -/
structure ContourEdge (T : Type) where
  label : ℕ
  left : List (Vec T)
  cross : List (Vec T)

/-- A `DynamicalComponent`: its `topContour()` and its `bottomContour()`. -/
structure ContourPair (T : Type) where
  top : List (ContourEdge T)
  bottom : List (ContourEdge T)

/-- `Lengths`, impl/lengths.hpp:41-92. Labels are the indices of edges. The top of the stack, `stack.back()`, is the
first element. -/
structure Lengths (T : Type) where
  vertical : Vec T
  lengths : ℕ → Option (Vec T)
  stack : List ℕ
  sum : T

namespace Lengths

/-- `toLabel`, lengths.cc:301-305. -/
def toLabel (dbg : Bool) (L : Lengths T) (e : Edge) : Except Err ℕ :=
  if dbg ∧ L.lengths e.index = none then .error .logicError else .ok e.index

/-- `fromLabel`, lengths.cc:307-314. -/
def fromLabel (dbg : Bool) (L : Lengths T) (l : ℕ) : Except Err Edge := do
  let e ← Edge.ofId ((l : ℤ) + 1)
  if dbg then
    let l' ← L.toLabel dbg e
    if l' ≠ l then throw .logicError
    if L.lengths e.index = none then throw .logicError
  return e

/-- `length(Label)`, lengths.cc:322-327. Dereferencing an empty `std::optional` is undefined. -/
def length (dbg : Bool) (L : Lengths T) (l : ℕ) : Except Err T := do
  let e ← L.fromLabel dbg l
  match L.lengths e.index with
  | none => throw .undefined
  | some v =>
    let x := Vertical.projectPerpendicular L.vertical v
    if dbg ∧ ¬ 0 < x then throw .logicError
    return x

/-- `length()`, lengths.cc:316-320. -/
def total (dbg : Bool) (L : Lengths T) : Except Err T :=
  if dbg ∧ L.sum < 0 then .error .logicError else .ok L.sum

section constructor

variable {K : Type*} [Field K] [LinearOrder K] [IsStrictOrderedRing K]

/-- The constructor, lengths.cc:66-75. The lengths are given for the `n` edges of the surface. -/
def make (A : Option (Approx T K)) (vertical : Vec T) (n : ℕ) (lengths : ℕ → Option (Vec T)) : Except Err (Lengths T) :=
  if (List.range n).any (fun l => match lengths l with
    | none => false
    | some v => decide (Vec.ccw A vertical v ≠ .clockwise))
  then .error .invalidArgument
  else .ok ⟨vertical, fun l => if l < n then lengths l else none, [], 0⟩

end constructor

/-- `push`, lengths.cc:77-82. -/
def push (dbg : Bool) (L : Lengths T) (l : ℕ) : Except Err (Lengths T) := do
  if dbg ∧ l ∈ L.stack then throw .logicError
  let x ← L.length dbg l
  return { L with stack := l :: L.stack, sum := L.sum + x }

/-- `pop`, lengths.cc:84-90. -/
def pop (dbg : Bool) (L : Lengths T) : Except Err (Lengths T) :=
  match L.stack with
  | [] => .error (if dbg then .logicError else .undefined)
  | l :: stack => do
    let x ← L.length dbg l
    let sum := L.sum - x
    if dbg ∧ stack = [] ∧ sum ≠ 0 then throw .logicError
    return { L with stack := stack, sum := sum }

/-- `component`, lengths.cc:92-102. -/
def component (dbg : Bool) (cs : List (ContourPair T)) (l : ℕ) : Except Err (ContourPair T) :=
  match cs.find? fun c => decide (c.top.head?.map ContourEdge.label = some l ∨
    c.bottom.head?.map ContourEdge.label = some l) with
  | none => .error (if dbg then .logicError else .undefined)
  | some c => .ok c

/-- `minuendOnTop`, lengths.cc:104-110. -/
def minuendOnTop (c : ContourPair T) (l : ℕ) : Bool := decide (c.top.head?.map ContourEdge.label = some l)

/-- The lambda `flow` in `subtractRepeated`, lengths.cc:164-174. -/
def flow (reverse : Bool) (L : List (Vec T)) : List (Vec T) :=
  if reverse then (L.map (- ·)).reverse else L

/-- The sum of some vectors, accumulated from the left. -/
def walkAlong (walk : Vec T) (L : List (Vec T)) : Vec T := L.foldl (· + ·) walk

/-- The walk across the subtrahends, lengths.cc:193-207. -/
def walkAcross (dbg reverse : Bool) (back : ℕ) : List (ContourEdge T) → Vec T → Except Err (Vec T)
  | [], walk => .ok walk
  | c :: cs, walk =>
    if dbg ∧ cs = [] then .error .logicError
    else
      let walk := walkAlong walk (flow reverse c.cross)
      if c.label = back then .ok walk else walkAcross dbg reverse back cs walk

/-- `subtractRepeated(Label, mpz_class)`, lengths.cc:143-254. -/
def subtractTimes (dbg : Bool) (cs : List (ContourPair T)) (L : Lengths T) (minuend : ℕ) (iterations : ℤ) :
    Except Err (Lengths T) := do
  if dbg ∧ ¬ 0 < iterations then throw .logicError
  let x ← L.length dbg minuend
  if dbg ∧ ¬ 0 < x then throw .logicError
  let s ← L.total dbg
  let expected := x - (iterations : T) * s
  if dbg ∧ ¬ 0 < expected then throw .logicError
  if dbg ∧ ¬ expected < x then throw .logicError
  let c ← component dbg cs minuend
  let onTop := minuendOnTop c minuend
  let minuendContour := if onTop then c.top else c.bottom
  let subtrahendContour := if onTop then c.bottom else c.top
  match L.lengths minuend, minuendContour, L.stack with
  | some connection, first :: _, back :: _ =>
    let walk := walkAlong 0 (flow (!onTop) first.left.reverse)
    let walk ← walkAcross dbg (!onTop) back subtrahendContour walk
    let vector := (iterations : T) • walk + -connection
    if dbg ∧ Vec.ccwExact L.vertical vector ≠ .counterclockwise then throw .logicError
    let L' : Lengths T := { L with lengths := fun l => if l = minuend then some (-vector) else L.lengths l }
    if dbg then
      let y ← L'.length dbg minuend
      if y = 0 then throw .logicError
      if y ≠ expected then throw .logicError
    return { L' with stack := [], sum := 0 }
  | _, _, _ => throw .undefined

/-- `subtract`, lengths.cc:112-115. -/
def subtract (dbg : Bool) (cs : List (ContourPair T)) (L : Lengths T) (minuend : ℕ) : Except Err (Lengths T) :=
  L.subtractTimes dbg cs minuend 1

/-- `subtractRepeated(Label)`, lengths.cc:117-141. The parameter `floorDiv` is `intervalxt::sample::FloorDivision`. -/
def subtractRepeated (dbg : Bool) (floorDiv : T → T → ℤ) (cs : List (ContourPair T)) (L : Lengths T) (minuend : ℕ) :
    Except Err (Lengths T × ℕ) := do
  let c ← component dbg cs minuend
  let onTop := minuendOnTop c minuend
  let subtrahendContour := if onTop then c.bottom else c.top
  match subtrahendContour.find? fun c => decide (c.label = minuend), L.stack with
  | none, _ => throw (if dbg then .logicError else .undefined)
  | some _, [] => throw .undefined
  | some bottomMinuend, back :: _ =>
    if bottomMinuend.left.length = 0 then
      let x ← L.length dbg minuend
      let s ← L.total dbg
      if s = 0 then throw .undefined
      let quotient := floorDiv x s
      let iterations := if (quotient : T) * s = x then quotient - 1 else quotient
      if dbg ∧ ¬ 0 < iterations then throw .logicError
      let L' ← L.subtractTimes dbg cs minuend iterations
      return (L', back)
    else
      let L' ← L.subtractTimes dbg cs minuend 1
      return (L', back)

/-- `cmp(Label)`, lengths.cc:269-276. -/
def cmp (dbg : Bool) (L : Lengths T) (l : ℕ) : Except Err ℤ := do
  let s ← L.total dbg
  let x ← L.length dbg l
  return if s < x then -1 else if x < s then 1 else 0

/-- `cmp(Label, Label)`, lengths.cc:278-285. -/
def cmpLabels (dbg : Bool) (L : Lengths T) (l r : ℕ) : Except Err ℤ := do
  let x ← L.length dbg l
  let y ← L.length dbg r
  return if x < y then -1 else if y < x then 1 else 0

/-- A modification of the lengths. The contours are part of the operations that use them since they are maintained by
intervalxt. -/
inductive Op (T : Type)
  | push (l : ℕ)
  | pop
  | subtract (cs : List (ContourPair T)) (minuend : ℕ)
  | subtractRepeated (cs : List (ContourPair T)) (minuend : ℕ)

/-- Perform an operation. -/
def step (dbg : Bool) (floorDiv : T → T → ℤ) (L : Lengths T) : Op T → Except Err (Lengths T)
  | .push l => L.push dbg l
  | .pop => L.pop dbg
  | .subtract cs m => L.subtract dbg cs m
  | .subtractRepeated cs m => do
    let (L', _) ← L.subtractRepeated dbg floorDiv cs m
    return L'

/-- Perform some operations. -/
def run (dbg : Bool) (floorDiv : T → T → ℤ) (L : Lengths T) : List (Op T) → Except Err (Lengths T)
  | [] => .ok L
  | op :: ops => do
    let L' ← L.step dbg floorDiv op
    L'.run dbg floorDiv ops

end Lengths

end Verif
