import Verif.Model.HalfEdge

/-!
# Interval exchange transformations without a surface

Model of `forget` in libflatsurf/src/interval_exchange_transformation.cc and of `render` in libflatsurf/src/lengths.cc. The labels that
`intervalxt::sample::Lengths` creates are the positions of the lengths.
-/

namespace Verif.Forget

open Verif

/-- The inner loop in `forget`, interval_exchange_transformation.cc:167-172, from the position `t` on. -/
def position (label : ℕ) : ℕ → List ℕ → Option ℕ
  | _, [] => none
  | t, x :: rest => if x = label then some t else position label (t + 1) rest

/-- The loop over the bottom labels in `forget`, interval_exchange_transformation.cc:164-173. -/
def bottomLabels (top : List ℕ) : List ℕ → List ℕ
  | [] => []
  | label :: rest => match position label 0 top with
    | some t => t :: bottomLabels top rest
    | none => bottomLabels top rest

/-- An interval exchange transformation with plain lengths. -/
structure Plain (T : Type) where
  lengths : List T
  top : List ℕ
  bottom : List ℕ

/-- `forget`, interval_exchange_transformation.cc:153-178. When labels do not match, the constructor in intervalxt is called with
lists of different lengths unless assertions are enabled. -/
def forget {T : Type} (dbg : Bool) (get : ℕ → T) (top bottom : List ℕ) : Except Err (Plain T) :=
  if (bottomLabels top bottom).length = top.length then .ok ⟨top.map get, List.range top.length, bottomLabels top bottom⟩
  else .error (if dbg then .logicError else .undefined)

/-- `-index` for a `size_t`. -/
def negSize (index : ℕ) : ℕ := (2 ^ 64 - index) % 2 ^ 64

/-- `render`, lengths.cc:292-298. The result is the number that is printed, and whether it is followed by a star. -/
def render (index : ℕ) : ℕ × Bool :=
  if negSize index ≥ index then ((index + 1) % 2 ^ 64, false) else (negSize index, true)

end Verif.Forget
