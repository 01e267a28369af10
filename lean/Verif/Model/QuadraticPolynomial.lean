import Verif.Model.Arb

/-!
# Quadratic polynomials (libflatsurf/src/quadratic_polynomial.cc)
-/

namespace Verif

/-- `QuadraticPolynomial<T>`, impl/quadratic_polynomial.hpp:29-34. -/
structure Quadratic (T : Type*) where
  a : T
  b : T
  c : T

namespace Quadratic

variable {T : Type*} [CommRing T] [LinearOrder T]

/-- `operator()`, quadratic_polynomial.cc:147-152. -/
def eval (p : Quadratic T) (t : T) : T :=
  if t = 0 then p.c
  else if t = 1 then p.a + p.b + p.c
  else p.a * t * t + p.b * t + p.c

/-- `positive()`, quadratic_polynomial.cc:154-175. -/
def positive (p : Quadratic T) : Bool :=
  if p.eval 0 ≤ 0 then false
  else if p.eval 1 > 0 then
    if (p.a = 0 ∧ (p.c > -p.b ∧ p.c > 0)) ∨ p.a < 0 ∨
        (p.a > 0 ∧ (-p.b < 0 ∨ -p.b > 2 * p.a ∨ p.b * p.b - 4 * p.a * p.c < 0)) then true
    else false
  else false

/-- The resultant, quadratic_polynomial.cc:131. -/
def resultant (p q : Quadratic T) : T :=
  p.c * p.c * q.a * q.a - p.b * p.c * q.a * q.b + p.a * p.c * q.b * q.b + p.b * p.b * q.a * q.c
    - 2 * p.a * p.c * q.a * q.c - p.a * p.b * q.b * q.c + p.a * p.a * q.c * q.c

/-- `operator<`, quadratic_polynomial.cc:99-145. The functions `t` and `s` are the approximations of the roots,
`root(prec)`, at the first, second, ... precision. The C++ loop is unbounded; here it returns `none` when `fuel`
precisions did not suffice. -/
def ltAux {K : Type*} [Field K] [LinearOrder K] [IsStrictOrderedRing K] (p q : Quadratic T) (t s : ℕ → Ball K) :
    ℕ → ℕ → Option Bool
  | 0, _ => none
  | fuel + 1, prec =>
    match (t prec).lt (s prec) with
    | some lt => some lt
    | none =>
      if p.a = 0 ∧ q.a = 0 then
        if p.c * q.b = q.c * p.b then some false else ltAux p q t s fuel (prec + 1)
      else if resultant p q ≠ 0 then ltAux p q t s fuel (prec + 1)
      else some false

/-- `operator<`, quadratic_polynomial.cc:99-145. -/
def lt {K : Type*} [Field K] [LinearOrder K] [IsStrictOrderedRing K] (p q : Quadratic T) (t s : ℕ → Ball K)
    (fuel : ℕ) : Option Bool :=
  if p.a * q.b = p.b * q.a ∧ p.a * q.c = p.c * q.a ∧ p.b * q.c = p.c * q.b then some false
  else ltAux p q t s fuel 0

end Quadratic

end Verif
