import Verif.Spec.Equivalence
import Verif.Spec.Vector
import Verif.Model.FindIsomorphism

/-!
# What is expected of the search for an isomorphism of surfaces
-/

namespace Verif.Spec

variable {T : Type} [CommRing T] [LinearOrder T] [IsStrictOrderedRing T]

/-- Half edges that are not sides of cells. The cells are the faces or the Delaunay cells. -/
def Inner (S : FlatTri T) (kind : IsomorphismKind) (e : HE) : Prop := kind = .delaunayCells ∧ S.delaunayAt (2 * (e / 2)) = .ambiguous

/-- The sides of cells. -/
def CellSide (S : FlatTri T) (kind : IsomorphismKind) (e : HE) : Prop := e < S.tri.size ∧ ¬ Inner S kind e

/-- When turning at a vertex from `e`, the first half edge that is not inside a cell is `y`. -/
def FirstSide (turn : HE → HE) (inner : HE → Prop) (e y : HE) : Prop :=
  ∃ k, y = turn^[k + 1] e ∧ ¬ inner y ∧ ∀ i < k, inner (turn^[i + 1] e)

/-- The side of a cell that follows after the side `e`. -/
def NextSide (S : FlatTri T) (kind : IsomorphismKind) (e y : HE) : Prop := FirstSide S.tri.previousAtVertex (Inner S kind) (neg e) y

/-- `σ` is a bijection of the sides of the cells which respects how they are glued. If `σ` does not preserve the orientation, sides are
in the opposite order in their cells. -/
structure CellMap (S S' : FlatTri T) (kind : IsomorphismKind) (preserving : Bool) (σ : HE → HE) : Prop where
  side : ∀ x, CellSide S kind x → CellSide S' kind (σ x)
  inj : ∀ x y, CellSide S kind x → CellSide S kind y → σ x = σ y → x = y
  surj : ∀ y, CellSide S' kind y → ∃ x, CellSide S kind x ∧ σ x = y
  opposite : ∀ x, CellSide S kind x → σ (neg x) = neg (σ x)
  next : ∀ x y, CellSide S kind x → NextSide S kind x y →
    if preserving then NextSide S' kind (σ x) (σ y) else NextSide S' kind (neg (σ y)) (neg (σ x))

/-- Cells have corners, and one can walk from each cell to each other cell. -/
structure ProperCells (S : FlatTri T) (kind : IsomorphismKind) : Prop where
  nonempty : ∃ x, CellSide S kind x
  path : ∀ x y, CellSide S kind x → CellSide S kind y → Relation.ReflTransGen (fun a b => b = neg a ∨ NextSide S kind a b) x y
  corner : ∀ x y, CellSide S kind x → NextSide S kind x y → 0 < Vec.cross (S.vec x) (S.vec y)

/-- What is searched for: a matrix and a bijection of the sides of cells such that sides are transformed by the matrix. Both are
restricted to what the caller is interested in. -/
structure CellIsomorphism (S S' : FlatTri T) (kind : IsomorphismKind) (filterMatrix : T → T → T → T → Bool) (filterHalfEdgeMap : HE → HE → Bool)
    (M : Mat T) (σ : HE → HE) : Prop where
  map : CellMap S S' kind (decide (0 < M.det)) σ
  vec : ∀ x, CellSide S kind x → S'.vec (σ x) = M.apply (S.vec x)
  matrix : filterMatrix M.a M.b M.c M.d = true
  halfEdge : ∀ x, CellSide S kind x → filterHalfEdgeMap x (σ x) = true

end Verif.Spec
