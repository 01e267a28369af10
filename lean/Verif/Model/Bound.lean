import Verif.Model.Vector
import Mathlib.Algebra.Order.Floor.Defs
import Mathlib.Algebra.Order.Ring.Rat
import Mathlib.Algebra.Order.Ring.Int

/-!
# Bounds (libflatsurf/src/bound.cc) and comparisons of vectors with bounds (libflatsurf/src/vector.cc)
-/

namespace Verif

/-- `flatsurf::Bound`, a non-negative number given by its square. -/
structure Bound where
  square : ℤ
deriving DecidableEq

namespace Bound

/-- The default constructor, bound.cc:29-30. -/
def zero : Bound := ⟨0⟩

/-- `Bound(x)`, bound.cc:32-63. All the constructors for machine integers convert to `mpz_class`. -/
def ofInt (x : ℤ) : Bound := ⟨x * x⟩

/-- `Bound(x, y)`, bound.cc:65-396. All the constructors for machine integers convert to `mpz_class`. -/
def ofInts (x y : ℤ) : Bound := ⟨x * x + y * y⟩

/-- `operator bool`, bound.cc:402-404. -/
def nonzero (b : Bound) : Bool := decide (b.square ≠ 0)

/-- `operator==`, bound.cc:406-408. -/
def beq (b c : Bound) : Bool := decide (b.square = c.square)

/-- `operator<`, bound.cc:410-412. -/
def lt (b c : Bound) : Bool := decide (b.square < c.square)

/-- `operator*=`, bound.cc:414-417. -/
def scale (b : Bound) (c : ℤ) : Bound := ⟨b.square * (c * c)⟩

/-- `Bound::lower` for integers, bound.cc:420-432. -/
def lowerInt (v : Vec ℤ) : Bound := ⟨v.dot v⟩

/-- `Bound::lower` for rationals: the quotient of numerator and denominator rounded towards zero, bound.cc:426-427. -/
def lowerRat (v : Vec ℚ) : Bound := ⟨(v.dot v).num.tdiv (v.dot v).den⟩

/-- `Bound::lower` for coordinates that can be rounded down, bound.cc:430-431. -/
def lowerFloor {T : Type*} [CommRing T] [LinearOrder T] [FloorRing T] (v : Vec T) : Bound := ⟨⌊v.dot v⌋⟩

/-- `Bound::upper` for integers, bound.cc:435-449. -/
def upperInt (v : Vec ℤ) : Bound := ⟨v.dot v⟩

/-- `Bound::upper` for rationals, bound.cc:441-444. -/
def upperRat (v : Vec ℚ) : Bound :=
  ⟨(v.dot v).num.tdiv (v.dot v).den + (if (v.dot v).num.tmod (v.dot v).den ≠ 0 then 1 else 0)⟩

/-- `Bound::upper` for coordinates that can be rounded up, bound.cc:447-448. -/
def upperCeil {T : Type*} [CommRing T] [LinearOrder T] [FloorRing T] (v : Vec T) : Bound := ⟨⌈v.dot v⌉⟩

end Bound

namespace Vec

variable {T : Type*} [CommRing T] [LinearOrder T] {K : Type*} [Field K] [LinearOrder K] [IsStrictOrderedRing K]

/-- The square of the length of an approximate vector, vector.cc:320. -/
def sizeArb (A : Approx T K) (v : Vec (Ball K)) : Ball K := A.add (A.mul v.x v.x) (A.mul v.y v.y)

/-- `VectorWithError::operator>(Bound)`, vector.cc:311-322. -/
def gtBoundArb (A : Approx T K) (v : Vec (Ball K)) (b : Bound) : Option Bool :=
  let size := (sizeArb A v).gt (Ball.exact (b.square : K))
  if !b.nonzero then
    match nonzeroArb v with
    | some r => some r
    | none => size
  else size

/-- `VectorWithError::operator<(Bound)`, vector.cc:334-341. -/
def ltBoundArb (A : Approx T K) (v : Vec (Ball K)) (b : Bound) : Option Bool :=
  if !b.nonzero then some false
  else (sizeArb A v).lt (Ball.exact (b.square : K))

/-- `VectorExact::operator>(Bound)`, vector.cc:470-483. -/
def gtBound (A : Option (Approx T K)) (v : Vec T) (b : Bound) : Bool :=
  if !b.nonzero then v.nonzero
  else match A with
    | some A => (gtBoundArb A ⟨A.arb v.x, A.arb v.y⟩ b).getD (decide (v.x * v.x + v.y * v.y > (b.square : T)))
    | none => decide (v.x * v.x + v.y * v.y > (b.square : T))

/-- `VectorExact::operator<(Bound)`, vector.cc:485-498. -/
def ltBound (A : Option (Approx T K)) (v : Vec T) (b : Bound) : Bool :=
  if !b.nonzero then false
  else match A with
    | some A => (ltBoundArb A ⟨A.arb v.x, A.arb v.y⟩ b).getD (decide (v.x * v.x + v.y * v.y < (b.square : T)))
    | none => decide (v.x * v.x + v.y * v.y < (b.square : T))

end Vec

end Verif
