import Verif.Lemmas.PointMoveVertex
import Verif.Lemmas.FlatExamples
import Mathlib.Tactic.IntervalCases

/-!
# A surface with a marked vertex and a vertex with total angle 6π
-/

namespace Verif.Examples

open Verif Tri FlatTri Spec

instance : DecidableEq (Except Err (Point ℤ)) := fun x y =>
  match x, y with
  | .ok p, .ok q => if h : p = q then .isTrue (by rw [h]) else .isFalse (fun k => h (by injection k))
  | .error p, .error q => if h : p = q then .isTrue (by rw [h]) else .isFalse (fun k => h (by injection k))
  | .ok _, .error _ => .isFalse (fun k => by cases k)
  | .error _, .ok _ => .isFalse (fun k => by cases k)

/-- The L-shaped surface made of three squares of side length 3 with a vertex inserted in one of its triangles. -/
def markedEllTri : Tri :=
  tri [[0, 19, 12, 6, 3, 15, 7, 4, 16, 10, 5, 13, 23, 9, 2, 14, 8, 21, 1, 17, 11], [18, 20, 22]] []

theorem markedEll_make (dbg : Bool) :
    make dbg (perm [[0, 19, 12, 6, 3, 15, 7, 4, 16, 10, 5, 13, 23, 9, 2, 14, 8, 21, 1, 17, 11], [18, 20, 22]]) [] = .ok markedEllTri := by
  cases dbg <;> rfl

theorem markedEll_reachable (dbg : Bool) : markedEllTri.Reachable dbg :=
  .make (.ofCycles (cs := [[0, 19, 12, 6, 3, 15, 7, 4, 16, 10, 5, 13, 23, 9, 2, 14, 8, 21, 1, 17, 11], [18, 20, 22]]) rfl) (markedEll_make dbg)

/-- The half edges `18`, `20`, and `22` start at the inserted vertex. -/
def markedEll : FlatTri ℤ :=
  ⟨markedEllTri, listed [⟨3, 0⟩, ⟨3, 0⟩, ⟨3, 0⟩, ⟨0, 3⟩, ⟨0, 3⟩, ⟨0, 3⟩, ⟨3, 3⟩, ⟨3, 3⟩, ⟨3, 3⟩, ⟨-2, -1⟩, ⟨1, -1⟩, ⟨1, 2⟩]⟩

theorem markedEll_isFlat : IsFlat markedEll :=
  (isFlat_of_check (none : Option (Approx ℤ ℚ)) (markedEll_reachable true) fun e _ => listed_neg _ e).1 (by decide +kernel)

theorem markedEll_closed (dbg : Bool) : Closed dbg markedEll := ⟨markedEll_reachable dbg, markedEll_isFlat, by decide⟩

theorem markedEll_marked : MarkedPoint (Int.castRingHom ℝ) markedEll 22 := by
  obtain ⟨m, m1, m2⟩ := (C52.isMarked_eq (f := Int.castRingHom ℝ) Int.cast_strictMono (markedEll_closed true) (e := 22) (by decide)).1 30
    (.ok true) (by rfl)
  injection m1 with m1
  exact m2.1 m1.symm

theorem markedEll_singular : ¬MarkedPoint (Int.castRingHom ℝ) markedEll 13 := by
  obtain ⟨m, m1, m2⟩ := (C52.isMarked_eq (f := Int.castRingHom ℝ) Int.cast_strictMono (markedEll_closed true) (e := 13) (by decide)).1 30
    (.ok false) (by rfl)
  injection m1 with m1
  rw [← m2, ← m1]
  decide

theorem bigTorus_closed (dbg : Bool) : Closed dbg bigTorus := ⟨torus_reachable dbg, bigTorus_isFlat, by decide⟩

theorem bigTorus_marked : ∀ y < bigTorus.tri.size, MarkedPoint (Int.castRingHom ℝ) bigTorus y := by
  have key : ∀ y < bigTorus.tri.size, bigTorus.isMarked 30 y = some (.ok true) := by
    intro y hy
    have hy' : y < 6 := hy
    interval_cases y <;> rfl
  intro y hy
  obtain ⟨m, m1, m2⟩ := (C52.isMarked_eq (f := Int.castRingHom ℝ) Int.cast_strictMono (bigTorus_closed true) hy).1 30 _ (key y hy)
  injection m1 with m1
  exact m2.1 m1.symm

end Verif.Examples
