import Verif.Spec.InsertPoint

/-!
# Specification: positions before and after a vertex is inserted on an edge
-/

namespace Verif.Spec

variable {T : Type} [CommRing T] [LinearOrder T]

/-- The half edge `x` is a side of one of the two faces in `S'` into which the face of `n` in `S` has been cut: the faces at
the two sides of that face other than `n`. -/
def IsCutSide (S S' : FlatTri T) (n x : HE) : Prop :=
  IsSide S' (S.tri.nextInFace n) x ∨ IsSide S' (S.tri.nextInFace (S.tri.nextInFace n)) x

/-- The face of `n` in `S`, and the faces in `S'` into which it has been cut, laid out in the plane such that the sides
other than `n` are at the same place. `C x` and `C' x` is where the half edge `x` starts. -/
structure CutLayout (S S' : FlatTri T) (n : HE) (C C' : HE → Vec T) : Prop where
  old : ∀ x, IsSide S n x → C (S.tri.nextInFace x) = C x + S.vec x
  new : ∀ x, IsCutSide S S' n x → C' (S'.tri.nextInFace x) = C' x + S'.vec x
  next : C' (S.tri.nextInFace n) = C (S.tri.nextInFace n)
  previous : C' (S.tri.nextInFace (S.tri.nextInFace n)) = C (S.tri.nextInFace (S.tri.nextInFace n))

/-- The description `p'` with respect to one of the faces into which the face of `n` has been cut is for the same position
as the description `p` with respect to the face of `n`. -/
def SameInCutFace (S S' : FlatTri T) (n : HE) (p p' : Point T) : Prop :=
  IsSide S n p.face ∧ IsCutSide S S' n p'.face ∧
    ∀ C C', CutLayout S S' n C C' → (p'.a + p'.b + p'.c) • place S C p = (p.a + p.b + p.c) • place S' C' p'

/-- The position of `p'` after a vertex has been inserted on the edge of `n` is the position of `p` before the insertion. -/
def SameAfterSplit (S S' : FlatTri T) (n : HE) (p p' : Point T) : Prop :=
  ∃ d d', SamePosition S p d ∧
    (¬ IsSide S n d.face ∧ ¬ IsSide S (neg n) d.face ∧ d' = d ∨ SameInCutFace S S' n d d' ∨ SameInCutFace S S' (neg n) d d') ∧
    SamePosition S' d' p'

end Verif.Spec
