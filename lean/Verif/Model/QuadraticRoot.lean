import Verif.Model.QuadraticPolynomial

/-!
# Roots of quadratic polynomials

Model of `QuadraticPolynomial::root` in libflatsurf/src/quadratic_polynomial.cc.
-/

namespace Verif

/-- The results of the formulas for roots in Arb arithmetic at the first, second, ... precision, each twice the previous one.
Simplification: these are not computed from the approximations of the coefficients. A ball that is not finite is `none`; all
comparisons with it are indeterminate. -/
structure RootBalls (T K : Type*) [Field K] [LinearOrder K] where
  /-- `-c_ / b_`, quadratic_polynomial.cc:67. -/
  linear : Quadratic T → ℕ → Option (Ball K)
  /-- `-b_ / (2 * a_)`, quadratic_polynomial.cc:75. -/
  double : Quadratic T → ℕ → Option (Ball K)
  /-- `(-b_ + sqrt_discriminant) / (2 * a_)`, quadratic_polynomial.cc:80. -/
  plus : Quadratic T → ℕ → Option (Ball K)
  /-- `(-b_ - sqrt_discriminant) / (2 * a_)`, quadratic_polynomial.cc:81. -/
  minus : Quadratic T → ℕ → Option (Ball K)

namespace Quadratic

variable {T : Type*} [CommRing T] [LinearOrder T] {K : Type*} [Field K] [LinearOrder K] [IsStrictOrderedRing K]

/-- `validate`, quadratic_polynomial.cc:37-53. The result of the recursive call is `again`. -/
def validate (p : Quadratic T) (again : Option (Option (Ball K))) (solution : Option (Ball K)) : Option (Option (Ball K)) :=
  match solution.bind fun s => s.lt (Ball.exact 0) with
  | none => if p.eval 0 = 0 then some (some (Ball.exact 0)) else again
  | some lt0 => match solution.bind fun s => s.gt (Ball.exact 1) with
    | none => if p.eval 1 = 0 then some (some (Ball.exact 1)) else again
    | some gt1 =>
      if lt0 then some none
      else if gt1 then some none
      else some solution

/-- Selects the smaller solution, quadratic_polynomial.cc:83-94. -/
def smaller : Option (Ball K) → Option (Ball K) → Option (Ball K)
  | some t0, some t1 => match t0.lt t1 with
    | none => some t0
    | some true => some t0
    | some false => some t1
  | some t0, none => some t0
  | none, some t1 => some t1
  | none, none => none

/-- `root`, quadratic_polynomial.cc:36-96. The result is `none` when `fuel` precisions did not suffice; otherwise, it is the
`std::optional` that is returned. -/
def root (B : RootBalls T K) (p : Quadratic T) : ℕ → ℕ → Option (Option (Ball K))
  | 0, _ => none
  | fuel + 1, prec =>
    if p.c = 0 then some (some (Ball.exact 0))
    else if p.a = 0 then
      if p.b = 0 then some none
      else if p.c = -p.b then some (some (Ball.exact 1))
      else p.validate (root B p fuel (prec + 1)) (B.linear p prec)
    else if p.b * p.b - 4 * p.a * p.c < 0 then some none
    else if p.b * p.b - 4 * p.a * p.c = 0 then p.validate (root B p fuel (prec + 1)) (B.double p prec)
    else match p.validate (root B p fuel (prec + 1)) (B.plus p prec) with
      | none => none
      | some t0 => match p.validate (root B p fuel (prec + 1)) (B.minus p prec) with
        | none => none
        | some t1 => some (smaller t0 t1)

end Quadratic

end Verif
