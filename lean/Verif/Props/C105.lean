import Verif.Lemmas.ContourIet
import Verif.Lemmas.FlatExamples

/-!
# C105: the interval exchange transformation of a large edge does not depend on the direction of the edge

The full property: the constructor that takes the unique large edge of a component gives the same interval exchange transformation for
that half edge and for the opposite half edge. This is not true: builds with assertions reject half edges that go from right to left,
builds without assertions silently return an interval exchange transformation that is not the one of the flow.
-/

namespace Verif.C105

open Verif Spec Tri FlatTri Vec Vertical Contour Examples

variable {T : Type} [CommRing T] [LinearOrder T] [IsStrictOrderedRing T]
variable {K : Type*} [Field K] [LinearOrder K] [IsStrictOrderedRing K]

/-- The full property for a surface, a vertical and a half edge. -/
def Independent (dbg : Bool) (S : FlatTri T) (v : Vec T) (e : HE) : Prop :=
  ∀ top bottom N, (∀ n ≥ N, iet S (none : Option (Approx T ℚ)) dbg v n e = some (.ok (top, bottom))) →
    ∃ N, ∀ n ≥ N, iet S (none : Option (Approx T ℚ)) dbg v n (neg e) = some (.ok (top, bottom))

/-- With assertions, large half edges that go from right to left are rejected. -/
theorem rejected_partial (A : Option (Approx T K)) {dbg : Bool} {S : FlatTri T} (h : Closed dbg S) {v : Vec T} {e : HE}
    (he : e ∈ S.tri.halfEdges) (hl : IsLarge S v e) (hp : cross (S.vec e) v < 0) (n : ℕ) :
    iet S A true v (n + 1) e = some (.error .invalidArgument) := by
  rw [mem_halfEdges] at he
  unfold iet
  rw [(large_iff h.shut.flat he).2 hl, makeContour, ccw_counterclockwise A hp]
  rfl

/-- Without assertions, the result is wrong. -/
theorem not_independent : ∃ (S : FlatTri ℤ) (v : Vec ℤ) (e : HE), Closed false S ∧ NoVertical S v ∧ UniqueLargeEdges S v ∧
    e ∈ S.tri.halfEdges ∧ IsLarge S v e ∧ 0 < cross (S.vec e) v ∧ ¬ Independent false S v e ∧
    (∃ N, ∀ n ≥ N, iet S (none : Option (Approx ℤ ℚ)) false v n e = some (.ok ([4, 3], [3, 4]))) ∧
    ∃ N, ∀ n ≥ N, iet S (none : Option (Approx ℤ ℚ)) false v n (neg e) = some (.ok ([1], [1])) := by
  have h1 : ∀ n ≥ 4, iet flatTorus (none : Option (Approx ℤ ℚ)) false ⟨1, 3⟩ n 0 = some (.ok ([4, 3], [3, 4])) := by
    intro n hn
    obtain ⟨n, rfl⟩ := Nat.exists_eq_add_of_le' hn
    rfl
  have h2 : ∀ n ≥ 4, iet flatTorus (none : Option (Approx ℤ ℚ)) false ⟨1, 3⟩ n 1 = some (.ok ([1], [1])) := by
    intro n hn
    obtain ⟨n, rfl⟩ := Nat.exists_eq_add_of_le' hn
    rfl
  have hF := IsFlat.flat (torus_reachable false) flatTorus_isFlat
  refine ⟨flatTorus, ⟨1, 3⟩, 0, ⟨torus_reachable false, flatTorus_isFlat, by decide⟩, by unfold NoVertical; decide, ?_, by decide,
    (large_iff hF (by decide)).1 (by decide), by decide, ?_, ⟨4, h1⟩, ⟨4, h2⟩⟩
  · intro x hx y hy hj g1 g2
    clear hj
    rw [mem_halfEdges] at hx hy
    rw [← large_iff hF hx] at g1
    rw [← large_iff hF hy] at g2
    revert x y
    decide
  · intro hi
    obtain ⟨N, hN⟩ := hi _ _ 4 h1
    have e1 := hN (max N 4) (by omega)
    have e2 := h2 (max N 4) (by omega)
    change iet flatTorus (none : Option (Approx ℤ ℚ)) false ⟨1, 3⟩ (max N 4) 1 = _ at e1
    rw [e2] at e1
    simp at e1

example : 1 ∈ flatTorus.tri.halfEdges ∧ IsLarge flatTorus ⟨1, 3⟩ 1 ∧ cross (flatTorus.vec 1) ⟨1, 3⟩ < 0 :=
  ⟨by decide, (large_iff (IsFlat.flat (torus_reachable true) flatTorus_isFlat) (by decide)).1 (by decide), by decide⟩

end Verif.C105
