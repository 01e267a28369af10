import Verif.Model.Basic
import Verif.Model.Arb

/-!
# Vectors (libflatsurf/src/vector.cc)

Coordinates are elements of a linearly ordered commutative ring. Where the code takes a shortcut with interval
arithmetic, which it does for number field elements and exact reals (`IsEAntic<T> || IsExactReal<T>`), the parameter `A`
says how it approximates; `none` stands for the other coordinate types.
-/

namespace Verif

/-- `flatsurf::Vector<T>`, vector.cc:91-107. -/
@[ext] structure Vec (T : Type*) where
  x : T
  y : T
deriving DecidableEq

/-- `flatsurf::CCW`, flatsurf/ccw.hpp. -/
inductive CCW where
  | clockwise | collinear | counterclockwise
deriving DecidableEq, Repr

/-- `flatsurf::ORIENTATION`, flatsurf/orientation.hpp. -/
inductive Orientation where
  | same | opposite | orthogonal
deriving DecidableEq, Repr

namespace Vec

section algebra

variable {T : Type*} [CommRing T]

/-- The default constructor, vector.cc:91-93, 638-640. -/
instance : Zero (Vec T) := ⟨⟨0, 0⟩⟩

/-- vector.cc:109-130. -/
instance : Add (Vec T) := ⟨fun v w => ⟨v.x + w.x, v.y + w.y⟩⟩

/-- vector.cc:137-142. -/
instance : Neg (Vec T) := ⟨fun v => ⟨-v.x, -v.y⟩⟩

/-- `operator-=`, vector.cc:132-135. -/
instance : Sub (Vec T) := ⟨fun v w => v + -w⟩

/-- `operator*=(const T&)`, vector.cc:460-468. -/
instance : SMul T (Vec T) := ⟨fun c v => ⟨v.x * c, v.y * c⟩⟩

/-- `operator*(const Vector&)`, the inner product, vector.cc:453-458. -/
def dot (v w : Vec T) : T := v.x * w.x + v.y * w.y

/-- `perpendicular()`, vector.cc:231-236. -/
def perpendicular (v : Vec T) : Vec T := ⟨-v.y, v.x⟩

/-- `applyMatrix`, vector.cc:514-522. -/
def applyMatrix (a b c d : T) (v : Vec T) : Vec T := ⟨a * v.x + b * v.y, c * v.x + d * v.y⟩

end algebra

variable {T : Type*} [CommRing T] [LinearOrder T]

/-- `operator==`, vector.cc:500-505. -/
def beq (v w : Vec T) : Bool := decide (v.x = w.x) && decide (v.y = w.y)

/-- `operator bool`, vector.cc:507-512. -/
def nonzero (v : Vec T) : Bool := decide (v.x ≠ 0) || decide (v.y ≠ 0)

/-- The exact computation in `ccw`, vector.cc:406-417. -/
def ccwExact (v w : Vec T) : CCW :=
  if v.x * w.y = w.x * v.y then .collinear
  else if v.x * w.y > w.x * v.y then .counterclockwise
  else .clockwise

/-- The exact computation in `orientation`, vector.cc:432-442. -/
def orientationExact (v w : Vec T) : Orientation :=
  if dot v w = 0 then .orthogonal
  else if dot v w > 0 then .same
  else .opposite

section approximations

variable {K : Type*} [Field K] [LinearOrder K] [IsStrictOrderedRing K]

/-- `VectorWithError::ccw`, vector.cc:261-285. (In debug builds it is asserted that the midpoints of disjoint balls
differ, which is true of all balls.) -/
def ccwArb (A : Approx T K) (v w : Vec T) : Option CCW :=
  let a := A.mul (A.arb v.x) (A.arb w.y)
  let b := A.mul (A.arb w.x) (A.arb v.y)
  if a.overlaps b then
    if a.isExact && b.isExact then
      if a.mid = b.mid then some .collinear else none
    else none
  else if a.mid < b.mid then some .clockwise
  else some .counterclockwise

/-- `VectorWithError::operator*`, vector.cc:395-400. -/
def dotArb (A : Approx T K) (v w : Vec T) : Ball K :=
  A.add (A.mul (A.arb v.x) (A.arb w.x)) (A.mul (A.arb v.y) (A.arb w.y))

/-- `VectorWithError::orientation`, vector.cc:287-309. -/
def orientationArb (A : Approx T K) (v w : Vec T) : Option Orientation :=
  match (dotArb A v w).gt (Ball.exact 0) with
  | some true => some .same
  | some false => if (dotArb A v w).eq (Ball.exact 0) = some true then some .orthogonal else some .opposite
  | none => none

/-- `VectorExact::ccw`, vector.cc:402-426. -/
def ccw (A : Option (Approx T K)) (v w : Vec T) : CCW :=
  match A with
  | some A => (ccwArb A v w).getD (ccwExact v w)
  | none => ccwExact v w

/-- `VectorExact::orientation`, vector.cc:428-451. -/
def orientation (A : Option (Approx T K)) (v w : Vec T) : Orientation :=
  match A with
  | some A => (orientationArb A v w).getD (orientationExact v w)
  | none => orientationExact v w

/-- `VectorExact::inSector`, vector.cc:524-558. The function calls itself with `begin` and `end` swapped when `end` is
clockwise from `begin`. The C++ recursion is unbounded, here it is cut off after `fuel` calls with the outcome
`undefined`. -/
def inSectorAux (A : Option (Approx T K)) (v : Vec T) : ℕ → Vec T → Vec T → Except Err Bool
  | 0, _, _ => .error .undefined
  | fuel + 1, b, e =>
    if !b.nonzero then .error .invalidArgument
    else if !e.nonzero then .error .invalidArgument
    else if !v.nonzero then .error .invalidArgument
    else match ccw A b e with
      | .collinear => match orientation A b e with
        | .same => .ok (decide (ccw A v b = .collinear) && decide (orientation A v b = .same))
        | .opposite => match ccw A b v with
          | .counterclockwise => .ok true
          | .clockwise => .ok false
          | .collinear => .ok (decide (orientation A b v = .same))
        | .orthogonal => .error .undefined
      | .clockwise => (inSectorAux A v fuel e b).map (!·)
      | .counterclockwise => .ok (decide (ccw A b v ≠ .clockwise) && decide (ccw A v e = .counterclockwise))

/-- `VectorExact::inSector`, with a recursion depth of at most two. -/
def inSector (A : Option (Approx T K)) (v b e : Vec T) : Except Err Bool := inSectorAux A v 2 b e

/-- `VectorExact::CompareLength`, vector.cc:623-635. -/
def compareLength (A : Option (Approx T K)) (v w : Vec T) : Bool :=
  match A with
  | some A => ((dotArb A v v).lt (dotArb A w w)).getD (decide (dot v v < dot w w))
  | none => decide (dot v v < dot w w)

/-- `VectorWithError::operator==`, vector.cc:353-366. Line 361 compares the first coordinate of one vector to the second
coordinate of the other. -/
def eqArb (v w : Vec (Ball K)) : Option Bool :=
  match v.x.eq w.x with
  | none => none
  | some false => some false
  | some true => match v.x.eq w.y with
    | none => none
    | some false => some false
    | some true => some true

/-- `VectorWithError::operator std::optional<bool>`, vector.cc:379-393. (`a != b` is the negation of `a == b`.) -/
def nonzeroArb (v : Vec (Ball K)) : Option Bool :=
  match v.x.eq (Ball.exact 0), v.y.eq (Ball.exact 0) with
  | some x, some y => some (!x || !y)
  | some false, none => some true
  | none, some false => some true
  | _, _ => none

end approximations

/-- `VectorExact::CompareSlope`, vector.cc:600-621. The assertions that the vectors are not zero are compiled out in
release builds. -/
def compareSlope (v w : Vec T) : Bool :=
  if w.x = 0 then decide (v.x ≠ 0)
  else if v.x = 0 then false
  else if decide (v.x < 0) = decide (w.x < 0) then decide (v.y * w.x < w.y * v.x)
  else decide (v.y * w.x > w.y * v.x)

/-- `VectorExact::area2`, vector.cc:579-598. The assertions are compiled out in release builds. -/
def area2 (perimeter : List (Vec T)) : T :=
  (perimeter.foldl (fun (s : Vec T × T) v =>
    let next := s.1 + v
    (next, s.2 + (s.1.x * next.y - s.1.y * next.x))) (0, 0)).2

end Vec

/-- The largest `long long`. -/
def llongMax : ℤ := 2 ^ 63 - 1

/-- One coordinate of `Vector<long long>::operator/=(const mpz_class&)`, vector.cc:211-219. Division of `long long` rounds
towards zero; dividing by zero and dividing the smallest `long long` by `-1` is undefined behaviour. What `get_sll` does
with a divisor which is not a `long long` depends on a library that is not part of the repository, so it is treated as
undefined here. -/
def llongDiv (x rhs : ℤ) : Except Err ℤ :=
  if rhs ≥ llongMax then .ok 0
  else if rhs < -llongMax - 1 then .error .undefined
  else if rhs = 0 then .error .undefined
  else if x = -llongMax - 1 ∧ rhs = -1 then .error .undefined
  else .ok (x.tdiv rhs)

end Verif
