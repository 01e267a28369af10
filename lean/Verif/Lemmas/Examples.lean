import Verif.Lemmas.TriSpec

/-!
# Surfaces used in examples
-/

namespace Verif.Examples

open Verif Tri

/-- The permutation with the given cycles. -/
def perm (cs : List (List HE)) : Perm := (Perm.ofCycles cs).toOption.getD ⟨0, id, id⟩

/-- The triangulation with the given vertices and boundary. -/
def tri (cs : List (List HE)) (B : List HE) : Tri :=
  (make true (perm cs) B).toOption.getD ⟨⟨0, id, id⟩, ⟨0, id, id⟩, []⟩

/-- A torus made of two triangles: `(0 2 5)` and `(4 1 3)`. -/
def torus : Tri := tri [[0, 4, 2, 1, 5, 3]] []

/-- A single triangle `(0 2 4)`. -/
def triangle : Tri := tri [[0, 5], [2, 1], [4, 3]] [1, 3, 5]

/-- Two triangles `(0 2 4)` and `(1 6 8)` glued along one edge. -/
def square : Tri := tri [[2, 1, 9], [8, 7], [6, 0, 5], [4, 3]] [3, 5, 7, 9]

theorem torus_make (dbg : Bool) : make dbg (perm [[0, 4, 2, 1, 5, 3]]) [] = .ok torus := by cases dbg <;> rfl

theorem triangle_make (dbg : Bool) : make dbg (perm [[0, 5], [2, 1], [4, 3]]) [1, 3, 5] = .ok triangle := by
  cases dbg <;> rfl

theorem square_make (dbg : Bool) :
    make dbg (perm [[2, 1, 9], [8, 7], [6, 0, 5], [4, 3]]) [3, 5, 7, 9] = .ok square := by
  cases dbg <;> rfl

theorem torus_reachable (dbg : Bool) : torus.Reachable dbg :=
  .make (.ofCycles (cs := [[0, 4, 2, 1, 5, 3]]) rfl) (torus_make dbg)

theorem triangle_reachable (dbg : Bool) : triangle.Reachable dbg :=
  .make (.ofCycles (cs := [[0, 5], [2, 1], [4, 3]]) rfl) (triangle_make dbg)

theorem square_reachable (dbg : Bool) : square.Reachable dbg :=
  .make (.ofCycles (cs := [[2, 1, 9], [8, 7], [6, 0, 5], [4, 3]]) rfl) (square_make dbg)

end Verif.Examples
