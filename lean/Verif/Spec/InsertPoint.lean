import Verif.Spec.FlipPoint

/-!
# Specification: positions before and after a vertex is inserted in a face
-/

namespace Verif.Spec

variable {T : Type} [CommRing T] [LinearOrder T]

/-- The half edge `x` is a side of the face of `e`. -/
def IsSide (S : FlatTri T) (e x : HE) : Prop :=
  x = e ∨ x = S.tri.nextInFace e ∨ x = S.tri.nextInFace (S.tri.nextInFace e)

/-- The half edge `x` is a side of one of the faces in `S'` at the sides of the face of `n` in `S`. -/
def IsNewSide (S S' : FlatTri T) (n x : HE) : Prop := ∃ y, IsSide S n y ∧ IsSide S' y x

/-- The face of `n` in `S`, and the faces in `S'` into which it has been subdivided, laid out in the plane such that the
corners are at the same place. `C x` is where the half edge `x` starts. -/
structure CommonLayout (S S' : FlatTri T) (n : HE) (C : HE → Vec T) : Prop where
  old : ∀ x, IsSide S n x → C (S.tri.nextInFace x) = C x + S.vec x
  new : ∀ x, IsNewSide S S' n x → C (S'.tri.nextInFace x) = C x + S'.vec x

/-- The description `p'` with respect to one of the faces into which the face of `n` has been subdivided is for the same
position as the description `p` with respect to the face of `n`. -/
def SameInFace (S S' : FlatTri T) (n : HE) (p p' : Point T) : Prop :=
  IsSide S n p.face ∧ IsNewSide S S' n p'.face ∧
    ∀ C, CommonLayout S S' n C → (p'.a + p'.b + p'.c) • place S C p = (p.a + p.b + p.c) • place S' C p'

/-- The position of `p'` after the insertion is the position of `p` before the insertion. -/
def SameAfterInsertion (S S' : FlatTri T) (n : HE) (p p' : Point T) : Prop :=
  ∃ d d', SamePosition S p d ∧ (¬ IsSide S n d.face ∧ d' = d ∨ SameInFace S S' n d d') ∧ SamePosition S' d' p'

end Verif.Spec
