import Verif.Model.Point
import Verif.Spec.FlatTriangulation

/-!
# Specification of points

A surface is made of triangles by gluing. A position on the surface can be described by nonnegative weights for the corners
of a triangle. Several descriptions can be for the same position.
-/

namespace Verif.Spec

variable {T : Type} [CommRing T] [LinearOrder T]

/-- The descriptions of a position on a surface: weights for the source of `face`, its target, and the remaining corner. -/
structure Describes (S : FlatTri T) (p : Point T) : Prop where
  lt : p.face < S.tri.size
  nonneg : 0 ≤ p.a ∧ 0 ≤ p.b ∧ 0 ≤ p.c
  pos : 0 < p.a + p.b + p.c

/-- Two descriptions are for the same position. Only ratios of weights matter, it does not matter with which corner of
the triangle we start, and triangles are glued along their sides. -/
inductive SamePosition (S : FlatTri T) : Point T → Point T → Prop
  | scale {e : HE} {a b c : T} (l : T) : 0 < l → SamePosition S ⟨e, a, b, c⟩ ⟨e, l * a, l * b, l * c⟩
  | rotate {e : HE} {a b c : T} : SamePosition S ⟨e, a, b, c⟩ ⟨S.tri.nextInFace e, b, c, a⟩
  | glue {e : HE} {a b : T} : SamePosition S ⟨e, a, b, 0⟩ ⟨neg e, b, a, 0⟩
  | refl (p : Point T) : SamePosition S p p
  | symm {p q : Point T} : SamePosition S p q → SamePosition S q p
  | trans {p q r : Point T} : SamePosition S p q → SamePosition S q r → SamePosition S p r

/-- The position in the plane of the point with the given barycentric coordinates, i.e., (aA + bB + cC) / (a + b + c),
when the source `A` of the half edge is at the origin. -/
noncomputable def planePosition (f : T →+* ℝ) (S : FlatTri T) (p : Point T) : Vec ℝ :=
  (f (p.a + p.b + p.c))⁻¹ • (f p.b • (S.vec p.face).map f + f p.c • (S.vec p.face + S.vec (S.tri.nextInFace p.face)).map f)

/-- A division that succeeds exactly when there is a quotient. -/
def TrueDivision (div : T → T → Option T) : Prop := ∀ x y, y ≠ 0 → ∀ q, div x y = some q ↔ q * y = x

end Verif.Spec
