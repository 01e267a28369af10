import Verif.Props.C51

/-!
# C83: The order of intersections is consistent with their positions

For intersections with possibly different half edges, the one at the smaller ratio of its half edge is smaller, see
flatsurf/half_edge_intersection.hpp:52-55.

The comparison multiplies by the denominators of the two fractions without taking their signs into account. The sign of
the denominator is the sign of a coordinate of the half edge. Therefore, the order is reversed if these coordinates of the
half edges have different signs.
-/

namespace Verif.C83

open Verif Spec HalfEdgeIntersection Examples

/-- The property: intersections are compared by their position on their half edges. -/
def Consistent : Prop := ∀ (dbg : Bool) (i j : HalfEdgeIntersection ℤ) (t u : ℝ), i.surface = j.surface →
  CrossesAt (Int.castRingHom ℝ) i t → CrossesAt (Int.castRingHom ℝ) j u → FromLeft i → FromLeft j → t < u →
  lt dbg i j = .ok true

/-- The crossing of the saddle connection `(2, 3)` of the torus with the half edge `1`. -/
theorem first : CrossesAt (Int.castRingHom ℝ) (make flatTorus ⟨-1, -1⟩ 1 ⟨2, 3⟩) (1 / 3) := by
  refine ⟨by norm_num, by norm_num, 1 / 3, by norm_num, ?_⟩
  ext
  · change (Int.castRingHom ℝ) (-1) + (Int.castRingHom ℝ) 2 * (1 / 3) = (Int.castRingHom ℝ) (-1) * (1 / 3)
    norm_num
  · change (Int.castRingHom ℝ) (-1) + (Int.castRingHom ℝ) 3 * (1 / 3) = (Int.castRingHom ℝ) 0 * (1 / 3)
    norm_num

/-- The crossing of the saddle connection `(2, 3)` of the torus with the half edge `2`. -/
theorem second : CrossesAt (Int.castRingHom ℝ) (make flatTorus ⟨-1, -1⟩ 2 ⟨2, 3⟩) (1 / 2) := by
  refine ⟨by norm_num, by norm_num, 1 / 2, by norm_num, ?_⟩
  ext
  · change (Int.castRingHom ℝ) (-1) + (Int.castRingHom ℝ) 2 * (1 / 2) = (Int.castRingHom ℝ) 0 * (1 / 2)
    norm_num
  · change (Int.castRingHom ℝ) (-1) + (Int.castRingHom ℝ) 3 * (1 / 2) = (Int.castRingHom ℝ) 1 * (1 / 2)
    norm_num

/-- The intersection at `1/3` of half edge `1` is not smaller than the intersection at `1/2` of half edge `2`, but the
other way round. -/
theorem reversed (dbg : Bool) :
    lt dbg (make flatTorus ⟨-1, -1⟩ 1 ⟨2, 3⟩) (make flatTorus ⟨-1, -1⟩ 2 ⟨2, 3⟩) = .ok false ∧
    lt dbg (make flatTorus ⟨-1, -1⟩ 2 ⟨2, 3⟩) (make flatTorus ⟨-1, -1⟩ 1 ⟨2, 3⟩) = .ok true := by
  cases dbg <;> exact ⟨rfl, rfl⟩

theorem not_consistent : ¬ Consistent := by
  intro h
  have := h true (make flatTorus ⟨-1, -1⟩ 1 ⟨2, 3⟩) (make flatTorus ⟨-1, -1⟩ 2 ⟨2, 3⟩) _ _ rfl first second (by unfold FromLeft; decide) (by unfold FromLeft; decide) (by norm_num)
  rw [(reversed true).1] at this
  cases this

variable {T : Type} [CommRing T] [LinearOrder T] [IsStrictOrderedRing T] {f : T →+* ℝ}

/-- The order is consistent with the positions if the first coordinates of the half edges have the same sign. -/
theorem consistent_partial (hf : StrictMono f) (dbg : Bool) {i j : HalfEdgeIntersection T} {t u : ℝ}
    (hi : CrossesAt f i t) (hj : CrossesAt f j u) (hil : FromLeft i) (hjl : FromLeft j)
    (hs : 0 < (i.surface.vec i.halfEdge).x * (j.surface.vec j.halfEdge).x) :
    ∃ b, lt dbg i j = .ok b ∧ (b = true ↔ t < u) := by
  obtain ⟨r, hr, hr0, rfl, er⟩ := C51.relative_position hf dbg hi hil
  obtain ⟨s, hs', hs0, rfl, es⟩ := C51.relative_position hf dbg hj hjl
  refine ⟨_, by simp only [lt, hr, hs']; rfl, ?_⟩
  change 0 < i.along.x * j.along.x at hs
  have hix : i.along.x ≠ 0 := fun h => by simp [h] at hs
  have hjx : j.along.x ≠ 0 := fun h => by simp [h] at hs
  rw [if_pos hix] at er
  rw [if_pos hjx] at es
  have hp : ∀ k : HalfEdgeIntersection T, FromLeft k → 0 < Vec.cross k.direction k.along := by
    intro k hl
    have : Vec.cross k.along k.direction < 0 := hl
    simp only [Vec.cross] at this ⊢
    linarith [mul_comm k.along.x k.direction.y, mul_comm k.along.y k.direction.x]
  have hpos : 0 < r.2 * s.2 := by
    have := mul_pos (mul_pos (hp i hil) (hp j hjl)) hs
    rw [er, es]
    convert this using 1
    ring
  have hpos' : 0 < f r.2 * f s.2 := by simpa using hf hpos
  rw [decide_eq_true_iff, ← hf.lt_iff_lt, map_mul, map_mul]
  have key : f r.1 / f r.2 < f s.1 / f s.2 ↔ (f r.1 / f r.2) * (f r.2 * f s.2) < (f s.1 / f s.2) * (f r.2 * f s.2) :=
    (mul_lt_mul_iff_left₀ hpos').symm
  rw [key]
  have e1 : f r.1 / f r.2 * (f r.2 * f s.2) = f r.1 * f s.2 := by field_simp
  have e2 : f s.1 / f s.2 * (f r.2 * f s.2) = f s.1 * f r.2 := by field_simp
  rw [e1, e2]

example : 0 < (flatTorus.vec 0).x * (flatTorus.vec 4).x := by decide

end Verif.C83
