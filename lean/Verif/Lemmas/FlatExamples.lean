import Verif.Lemmas.Flat
import Verif.Lemmas.Examples

/-!
# Flat surfaces used in examples
-/

namespace Verif.Examples

open Verif Tri FlatTri Spec

/-- A square torus. -/
def flatTorus : FlatTri ℤ := ⟨torus, listed [⟨1, 0⟩, ⟨0, 1⟩, ⟨1, 1⟩]⟩

theorem flatTorus_isFlat : IsFlat flatTorus :=
  (isFlat_of_check (none : Option (Approx ℤ ℚ)) (torus_reachable true) fun e _ => listed_neg _ e).1 (by decide +kernel)

/-- A square torus with sides of length 3. -/
def bigTorus : FlatTri ℤ := ⟨torus, listed [⟨3, 0⟩, ⟨0, 3⟩, ⟨3, 3⟩]⟩

theorem bigTorus_isFlat : IsFlat bigTorus :=
  (isFlat_of_check (none : Option (Approx ℤ ℚ)) (torus_reachable true) fun e _ => listed_neg _ e).1 (by decide +kernel)

/-- A square torus with sides of length 4. -/
def wideTorus : FlatTri ℤ := ⟨torus, listed [⟨4, 0⟩, ⟨0, 4⟩, ⟨4, 4⟩]⟩

theorem wideTorus_isFlat : IsFlat wideTorus :=
  (isFlat_of_check (none : Option (Approx ℤ ℚ)) (torus_reachable true) fun e _ => listed_neg _ e).1 (by decide +kernel)

/-- A square with boundary, made of the triangles `(0 2 4)` and `(1 6 8)`; the diagonal `0` goes from the bottom left to
the top right. -/
def flatSquare : FlatTri ℤ := ⟨square, listed [⟨1, 1⟩, ⟨-1, 0⟩, ⟨0, -1⟩, ⟨1, 0⟩, ⟨0, 1⟩]⟩

theorem flatSquare_isFlat : IsFlat flatSquare :=
  (isFlat_of_check (none : Option (Approx ℤ ℚ)) (square_reachable true) fun e _ => listed_neg _ e).1 (by decide +kernel)

/-- A dart, i.e., a quadrilateral with a reflex angle, and its diagonal `0`. -/
def dart : FlatTri ℤ := ⟨square, listed [⟨1, 1⟩, ⟨-1, 4⟩, ⟨0, -5⟩, ⟨4, -1⟩, ⟨-3, 2⟩]⟩

theorem dart_isFlat : IsFlat dart :=
  (isFlat_of_check (none : Option (Approx ℤ ℚ)) (square_reachable true) fun e _ => listed_neg _ e).1 (by decide +kernel)

/-- An L-shaped surface made of three squares, its only vertex has a total angle of 6π. -/
def ell : Tri := tri [[0, 12, 6, 3, 15, 7, 4, 16, 10, 5, 13, 9, 2, 14, 8, 1, 17, 11]] []

theorem ell_make (dbg : Bool) : make dbg (perm [[0, 12, 6, 3, 15, 7, 4, 16, 10, 5, 13, 9, 2, 14, 8, 1, 17, 11]]) [] = .ok ell := by
  cases dbg <;> rfl

theorem ell_reachable (dbg : Bool) : ell.Reachable dbg :=
  .make (.ofCycles (cs := [[0, 12, 6, 3, 15, 7, 4, 16, 10, 5, 13, 9, 2, 14, 8, 1, 17, 11]]) rfl) (ell_make dbg)

/-- The surface with its vectors: the horizontal sides `0`, `2`, `4`, the vertical sides `6`, `8`, `10` and the diagonals
`12`, `14`, `16` of the squares. -/
def flatEll : FlatTri ℤ :=
  ⟨ell, listed [⟨1, 0⟩, ⟨1, 0⟩, ⟨1, 0⟩, ⟨0, 1⟩, ⟨0, 1⟩, ⟨0, 1⟩, ⟨1, 1⟩, ⟨1, 1⟩, ⟨1, 1⟩]⟩

theorem flatEll_isFlat : IsFlat flatEll :=
  (isFlat_of_check (none : Option (Approx ℤ ℚ)) (ell_reachable true) fun e _ => listed_neg _ e).1 (by decide +kernel)

end Verif.Examples
