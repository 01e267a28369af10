import Mathlib.Algebra.Order.Ring.Abs
import Mathlib.Algebra.Order.Field.Basic

/-!
# Interval arithmetic

The library uses `exactreal::Arb` to decide most predicates quickly. Arb itself is not part of the repository; all that
is assumed of it is that its balls enclose the exact results.
-/

namespace Verif

/-- An `exactreal::Arb`: a midpoint and a radius. Simplification: infinite radii and NaN are not modelled; such balls
make every predicate indeterminate. -/
structure Ball (K : Type*) [Field K] [LinearOrder K] where
  mid : K
  rad : K
  rad_nonneg : 0 ≤ rad

namespace Ball

variable {K : Type*} [Field K] [LinearOrder K] [IsStrictOrderedRing K]

/-- The numbers a ball stands for. -/
def Mem (b : Ball K) (x : K) : Prop := |x - b.mid| ≤ b.rad

/-- `arb_overlaps`. -/
def overlaps (a b : Ball K) : Bool := decide (|a.mid - b.mid| ≤ a.rad + b.rad)

/-- `arb_is_exact`. -/
def isExact (a : Ball K) : Bool := decide (a.rad = 0)

/-- `Arb::operator>`: `arb_gt`, then `arb_le`, indeterminate if neither holds. -/
def gt (a b : Ball K) : Option Bool :=
  if b.mid + b.rad < a.mid - a.rad then some true
  else if a.mid + a.rad ≤ b.mid - b.rad then some false
  else none

/-- `Arb::operator<`: `arb_lt`, then `arb_ge`, indeterminate if neither holds. -/
def lt (a b : Ball K) : Option Bool :=
  if a.mid + a.rad < b.mid - b.rad then some true
  else if b.mid + b.rad ≤ a.mid - a.rad then some false
  else none

/-- `Arb::operator==`: `arb_eq` which holds for equal exact balls, then `arb_ne` which holds for disjoint balls. -/
def eq (a b : Ball K) : Option Bool :=
  if a.rad = 0 ∧ b.rad = 0 ∧ a.mid = b.mid then some true
  else if a.overlaps b then none
  else some false

/-- An exact ball. -/
def exact (x : K) : Ball K := ⟨x, 0, le_rfl⟩

end Ball

/-- What is assumed about the conversion of coordinates to Arb (`Approximation<T>::arb`, approximation.cc) and about the
arithmetic at `ARB_PRECISION_FAST`: coordinates are numbers of `K` (think of the reals), and each operation returns some
ball enclosing the exact results. Nothing is assumed about the size of the radii. -/
structure Approx (T K : Type*) [CommRing T] [LinearOrder T] [Field K] [LinearOrder K] where
  value : T →+* K
  strictMono : StrictMono value
  arb : T → Ball K
  arb_mem : ∀ t, (arb t).Mem (value t)
  add : Ball K → Ball K → Ball K
  add_mem : ∀ {x y a b}, a.Mem x → b.Mem y → (add a b).Mem (x + y)
  mul : Ball K → Ball K → Ball K
  mul_mem : ∀ {x y a b}, a.Mem x → b.Mem y → (mul a b).Mem (x * y)

end Verif
