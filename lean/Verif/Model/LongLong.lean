import Verif.Model.Vector

/-!
# Multiplication of vectors of machine integers

Part of libflatsurf/src/vector.cc.
-/

namespace Verif.Vec

open Verif

/-- The product of two numbers of type `long long`; overflow is undefined behaviour. -/
def llongProduct (x y : ℤ) : Except Err ℤ :=
  if -2 ^ 63 ≤ x * y ∧ x * y ≤ 2 ^ 63 - 1 then .ok (x * y) else .error .undefined

/-- `Vector<long long>::operator*=(const mpz_class&)`, vector.cc:163-180. The conversion `get_sll` of gmpxxll is a parameter. -/
def llongMul (dbg : Bool) (sll : ℤ → ℤ) (rhs : ℤ) (v : Vec ℤ) : Except Err (Vec ℤ) :=
  if dbg && decide (rhs * v.x > 2 ^ 63 - 1) then .error .logicError
  else if dbg && decide (rhs * v.y > 2 ^ 63 - 1) then .error .logicError
  else match llongProduct v.x (sll rhs) with
    | .error err => .error err
    | .ok x => match llongProduct v.y (sll rhs) with
      | .error err => .error err
      | .ok y => .ok ⟨x, y⟩

/-- `Vector<long long>::operator*=(int)`, vector.cc:144-157. There are no assertions. -/
def llongMulInt (rhs : ℤ) (v : Vec ℤ) : Except Err (Vec ℤ) :=
  match llongProduct v.x rhs with
  | .error err => .error err
  | .ok x => match llongProduct v.y rhs with
    | .error err => .error err
    | .ok y => .ok ⟨x, y⟩

/-- `Vector<long long>::operator/=(int)`, vector.cc:182-201. Division of `long long` rounds towards zero. -/
def llongDivInt (rhs : ℤ) (v : Vec ℤ) : Except Err (Vec ℤ) :=
  if rhs = 0 then .error .undefined
  else if rhs = -1 ∧ (v.x = -2 ^ 63 ∨ v.y = -2 ^ 63) then .error .undefined
  else .ok ⟨v.x.tdiv rhs, v.y.tdiv rhs⟩

end Verif.Vec
