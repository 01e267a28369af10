import Verif.Spec.Point
import Verif.Spec.Retriangulation

/-!
# Specification: moving on a surface in a straight line

The surface is made of triangles. Each half edge `e` is a side of a triangle which we put in the plane such that `e` starts at
the origin. A position in the triangle is then given by `e` and a vector `w`.
-/

namespace Verif.Spec

open Vec

variable {T : Type} [CommRing T] [LinearOrder T]

/-- The vector `w` is in the triangle of `e`, including its boundary. -/
def InTriangle (f : T →+* ℝ) (S : FlatTri T) (e : HE) (w : Vec ℝ) : Prop :=
  0 ≤ cross ((S.vec e).map f) w ∧ 0 ≤ cross ((S.vec (S.tri.nextInFace e)).map f) (w - (S.vec e).map f) ∧
    0 ≤ cross ((S.vec (S.tri.nextInFace (S.tri.nextInFace e))).map f) w

/-- One gets from one position to another one in time `t` when moving with velocity `v` on the surface. Vertices may only be
crossed if they are `free`, i.e., if the source of the half edge is a vertex that may be crossed. -/
inductive Travels (f : T →+* ℝ) (S : FlatTri T) (free : HE → Prop) (v : Vec ℝ) : ℝ → HE × Vec ℝ → HE × Vec ℝ → Prop
  /-- Moving in a triangle. -/
  | move {e : HE} {w : Vec ℝ} {t : ℝ} : 0 ≤ t → InTriangle f S e w → InTriangle f S e (w + t • v) →
      Travels f S free v t (e, w) (e, w + t • v)
  /-- We can use another corner of the triangle as the origin. -/
  | rotate {e : HE} {w : Vec ℝ} : Travels f S free v 0 (e, w) (S.tri.nextInFace e, w - (S.vec e).map f)
  /-- Triangles are glued along their sides. -/
  | glue {e : HE} {s : ℝ} : 0 ≤ s → s ≤ 1 → (s = 0 → free e) → (s = 1 → free (neg e)) →
      Travels f S free v 0 (e, s • (S.vec e).map f) (neg e, (s - 1) • (S.vec e).map f)
  | trans {p q r : HE × Vec ℝ} {t u : ℝ} : Travels f S free v t p q → Travels f S free v u q r → Travels f S free v (t + u) p r

end Verif.Spec
