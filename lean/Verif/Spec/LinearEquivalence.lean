import Verif.Spec.Equivalence
import Verif.Spec.Vector
import Verif.Model.LinearEquivalence
import Mathlib.Algebra.Group.Units.Basic

/-!
# What is expected of equivalence classes of surfaces modulo linear maps
-/

namespace Verif.Spec

variable {T : Type} [CommRing T] [LinearOrder T]

/-- The elements of the groups: the identity, matrices of determinant ±1, and matrices with a determinant which can be
inverted. -/
def InGroup : LinearGroup → Mat T → Prop
  | .trivial, g => g = ⟨1, 0, 0, 1⟩
  | .sl, g => g.det = 1 ∨ g.det = -1
  | .gl, g => IsUnit g.det

/-- `σ` relabels the half edges such that `S` turns into `S'` and the vectors change by an element of the group. If surfaces
are considered as oriented surfaces, this must preserve the orientation. -/
def LinearRelabelling (group : LinearGroup) (oriented : Bool) (S S' : FlatTri T) (σ : HE → HE) : Prop :=
  ∃ g : Mat T, InGroup group g ∧ (oriented = true → 0 < g.det) ∧ Relabels S.tri S'.tri (decide (0 < g.det)) σ ∧
    ∀ x < S.tri.size, S'.vec (σ x) = g.apply (S.vec x)

/-- The relabellings of a surface to itself which come from an element of the group. -/
def linearAutomorphisms (group : LinearGroup) (oriented : Bool) (S : FlatTri T) : Set (HE → HE) :=
  {σ | LinearRelabelling group oriented S S σ ∧ ∀ x, S.tri.size ≤ x → σ x = x}

/-- Twice the area of each triangle can be inverted in the ring. -/
def UnitAreas (S : FlatTri T) : Prop := ∀ x < S.tri.size, IsUnit (Vec.cross (S.vec x) (S.vec (S.tri.nextAtVertex x)))

end Verif.Spec
