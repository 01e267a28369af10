import Verif.Spec.Point

/-!
# Specification: positions before and after a flip

A flip replaces the diagonal of a quadrilateral. We lay out the quadrilateral in the plane, with its two triangles before
and after the flip.
-/

namespace Verif.Spec

variable {T : Type} [CommRing T] [LinearOrder T]

/-- The half edge `x` is a side of one of the two triangles at `e`. -/
def InQuad (S : FlatTri T) (e x : HE) : Prop :=
  x = e ∨ x = S.tri.nextInFace e ∨ x = S.tri.nextInFace (S.tri.nextInFace e) ∨
    x = neg e ∨ x = S.tri.nextInFace (neg e) ∨ x = S.tri.nextInFace (S.tri.nextInFace (neg e))

/-- The two triangles at `e` laid out next to each other in the plane: `C x` is where the half edge `x` starts. -/
structure Layout (S : FlatTri T) (e : HE) (C : HE → Vec T) : Prop where
  side : ∀ x, InQuad S e x → C (S.tri.nextInFace x) = C x + S.vec x
  glued : C (neg e) = C e + S.vec e

/-- The weighted sum of the corners of the triangle. Divided by the sum of the weights, this is the place of the point in
the plane. -/
def place (S : FlatTri T) (C : HE → Vec T) (p : Point T) : Vec T :=
  p.a • C p.face + p.b • C (S.tri.nextInFace p.face) + p.c • C (S.tri.nextInFace (S.tri.nextInFace p.face))

/-- The description `p'` after the flip is for the same position as the description `p` before the flip. Triangles away
from `e` have not changed. In the quadrilateral, the places in the plane are the same when the other four sides of the
quadrilateral have not moved. -/
def Unmoved (S S' : FlatTri T) (e : HE) (p p' : Point T) : Prop :=
  ¬ InQuad S e p.face ∧ p' = p ∨
  InQuad S e p.face ∧ InQuad S' e p'.face ∧ Describes S p ∧ Describes S' p' ∧
    ∀ C C', Layout S e C → Layout S' e C' → (∀ x, InQuad S e x → x ≠ e → x ≠ neg e → C' x = C x) →
      (p'.a + p'.b + p'.c) • place S C p = (p.a + p.b + p.c) • place S' C' p'

/-- The position of `p'` after the flip is the position of `p` before the flip. -/
def SameAfterFlip (S S' : FlatTri T) (e : HE) (p p' : Point T) : Prop :=
  ∃ d d', SamePosition S p d ∧ Unmoved S S' e d d' ∧ SamePosition S' d' p'

end Verif.Spec
