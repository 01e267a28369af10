import Mathlib.Data.Nat.Basic

/-!
# Outcomes

`LIBFLATSURF_CHECK_ARGUMENT` and explicit `throw` statements are modelled by `Except`.
-/

namespace Verif

/-- How a call can fail.
* `invalidArgument`: `std::invalid_argument` is thrown (`LIBFLATSURF_CHECK_ARGUMENT`, `src/util/assert.ipp`).
* `logicError`: `std::logic_error` is thrown ("not implemented" and similar).
* `undefined`: C++ undefined behaviour, or a precondition that is only guarded by an assertion which is compiled out
  in release builds (`LIBFLATSURF_ASSERT*`, `src/util/assert.ipp`). -/
inductive Err where
  | invalidArgument
  | logicError
  | undefined
  deriving DecidableEq, Repr

end Verif
