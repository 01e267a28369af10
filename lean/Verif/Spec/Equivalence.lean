import Verif.Model.FlatTriangulation
import Mathlib.Logic.Relation
import Mathlib.Data.Set.Card

/-!
# What is expected of equivalence classes of surfaces
-/

namespace Verif.Spec

/-- From any half edge one gets to any other one by turning around half edges and walking around vertices. -/
structure ConnectedSurface (T : Tri) : Prop where
  nonempty : 0 < T.size
  path : ∀ x < T.size, ∀ y < T.size, Relation.ReflTransGen (fun a b => b = neg a ∨ b = T.nextAtVertex a) x y

/-- `σ` relabels the half edges of `T` such that `T` turns into `U`: pairs of half edges go to such pairs, and what is next
counterclockwise at a vertex goes to what is next counterclockwise, or next clockwise if `σ` does not preserve the
orientation. -/
structure Relabels (T U : Tri) (preserving : Bool) (σ : HE → HE) : Prop where
  lt : ∀ x < T.size, σ x < U.size
  inj : ∀ x < T.size, ∀ y < T.size, σ x = σ y → x = y
  surj : ∀ y < U.size, ∃ x < T.size, σ x = y
  neg : ∀ x < T.size, σ (neg x) = neg (σ x)
  vertex : ∀ x < T.size,
    σ (T.nextAtVertex x) = if preserving then U.nextAtVertex (σ x) else U.previousAtVertex (σ x)

/-- The relabellings which are allowed when surfaces are considered as oriented surfaces or not. -/
def Relabelling (oriented : Bool) (T U : Tri) (σ : HE → HE) : Prop :=
  Relabels T U true σ ∨ (oriented = false ∧ Relabels T U false σ)

/-- The relabellings of a surface to itself. -/
def automorphisms (oriented : Bool) (T : Tri) : Set (HE → HE) :=
  {σ | Relabelling oriented T T σ ∧ ∀ x, T.size ≤ x → σ x = x}

end Verif.Spec
