import Verif.Lemmas.CollapsedMake
import Verif.Lemmas.CollapsedExamples
import Verif.Model.CollapsedTurn
import Verif.Props.C30

/-!
# C120: sectors of collapsed surfaces
-/

namespace Verif.C120

open Verif Spec Examples

variable {T : Type} [CommRing T] [LinearOrder T] [IsStrictOrderedRing T]
variable {K : Type*} [Field K] [LinearOrder K] [IsStrictOrderedRing K]
variable {A : Option (Approx T K)} {dbg : Bool} {S : FlatTri T} {v : Vec T} {C : Collapsed T}

/-- A vector is in the sector counterclockwise from `u` up to but not including `w`: a positive multiple of the vector is a
combination of `u` and `w`. -/
def InCone (u w x : Vec T) : Prop := ∃ d a b : T, 0 < d ∧ 0 < a ∧ 0 ≤ b ∧ d • x = a • u + b • w

/-- A vector is in a sector of a triangle if it is between the half edge and the other side of the triangle at the same vertex. -/
theorem triangle (hS : Closed dbg S) (hv : v ≠ 0) (h : BuiltCollapsed A dbg S v C) {e : HE} (he : e ∈ C.tri.halfEdges)
    (ht : TriangleAt C e) (x : Vec T) :
    C.inSector A e x = true ↔ InCone (C.fromHalfEdge e) (-C.fromHalfEdge (C.tri.previousInFace e)) x := by
  have hs := h.sane hS.shut hv
  have hp : C.tri.previousInFace e = C.tri.nextInFace (C.tri.nextInFace e) := by
    have h1 := hs.good.linked.hf.left (C.tri.nextInFace (C.tri.nextInFace e))
    have h3 := ht.three
    unfold Tri.nextInFace Tri.previousInFace at *
    rw [h3] at h1
    exact h1
  have hd : 0 < Vec.cross (C.fromHalfEdge e) (-C.fromHalfEdge (C.tri.previousInFace e)) := by
    have h1 : -C.fromHalfEdge (C.tri.previousInFace e) = C.fromHalfEdge e + C.fromHalfEdge (C.tri.nextInFace e) := by
      rw [hp]
      linear_combination (norm := abel) -ht.closed
    rw [h1, Vec.cross_add_right, Vec.cross_self, zero_add]
    exact ht.oriented
  unfold Collapsed.inSector
  generalize C.fromHalfEdge (C.tri.previousInFace e) = p at hd ⊢
  generalize C.fromHalfEdge e = u at hd ⊢
  generalize -p = w at hd ⊢
  have hcase : (decide (Vec.ccw A u x ≠ .clockwise) && decide (Vec.ccw A w x = .clockwise)) = true ↔
      0 ≤ Vec.cross u x ∧ Vec.cross w x < 0 := by
    rw [Bool.and_eq_true, decide_eq_true_iff, decide_eq_true_iff, Vec.ccw_eq, Vec.ccw_eq, Ne, Vec.ccwExact_clockwise,
      Vec.ccwExact_clockwise, not_lt]
  rw [hcase]
  constructor
  · rintro ⟨h1, h2⟩
    refine ⟨Vec.cross u w, -Vec.cross w x, Vec.cross u x, hd, by linarith, h1, ?_⟩
    ext <;> simp only [Vec.cross, Vec.smul_x, Vec.smul_y, Vec.add_x, Vec.add_y] <;> ring
  · rintro ⟨d, a, b, h1, h2, h3, h4⟩
    have k1 : d * Vec.cross u x = b * Vec.cross u w := by
      rw [← Vec.cross_smul_right, h4, Vec.cross_add_right, Vec.cross_smul_right, Vec.cross_smul_right, Vec.cross_self, mul_zero, zero_add]
    have k2 : d * Vec.cross w x = -(a * Vec.cross u w) := by
      rw [← Vec.cross_smul_right, h4, Vec.cross_add_right, Vec.cross_smul_right, Vec.cross_smul_right, Vec.cross_self, mul_zero, add_zero,
        Vec.cross_comm u w]
      ring
    constructor
    · by_contra k
      have : d * Vec.cross u x < 0 := mul_neg_of_pos_of_neg h1 (not_le.1 k)
      rw [k1] at this
      exact absurd (mul_nonneg h3 hd.le) (not_le.2 this)
    · by_contra k
      have : 0 ≤ d * Vec.cross w x := mul_nonneg h1.le (not_lt.1 k)
      rw [k2] at this
      have := mul_pos h2 hd
      linarith

/-- No vector is in the sector of a face that has been collapsed. -/
theorem collapsed (hS : Closed dbg S) (hv : v ≠ 0) (h : BuiltCollapsed A dbg S v C) {e : HE} (he : e ∈ C.tri.halfEdges)
    (ht : CollapsedAt C e) (x : Vec T) : C.inSector A e x = false := by
  have hs := h.sane hS.shut hv
  have hp : C.tri.previousInFace e = neg e := by
    have h1 := hs.good.linked.hf.left (neg e)
    have h3 := ht.two.2
    unfold Tri.nextInFace Tri.previousInFace at *
    rw [h3] at h1
    exact h1
  have h1 : -C.fromHalfEdge (C.tri.previousInFace e) = C.fromHalfEdge e := by
    rw [hp]
    linear_combination (norm := abel) -ht.closed
  unfold Collapsed.inSector
  rw [h1]
  by_cases k : Vec.ccw A (C.fromHalfEdge e) x = .clockwise <;> simp [k]

/-- Vectors in the sector of a triangle of a collapsed surface. -/
example (x : Vec ℤ) : ellAfter.inSector (none : Option (Approx ℤ ℚ)) 2 x = true ↔ InCone ⟨1, 0⟩ ⟨1, 1⟩ x := by
  have ht : TriangleAt ellAfter 2 := ⟨by decide +kernel, by decide +kernel, by decide +kernel, by decide +kernel⟩
  have h := triangle flatEll_closed (by decide) ellAfter_built (by decide +kernel) ht x
  rw [show ellAfter.fromHalfEdge 2 = ⟨1, 0⟩ by decide +kernel,
    show -ellAfter.fromHalfEdge (ellAfter.tri.previousInFace 2) = ⟨1, 1⟩ by decide +kernel] at h
  exact h

/-- A face that has been collapsed. -/
example (x : Vec ℤ) : torusUp.inSector (none : Option (Approx ℤ ℚ)) 0 x = false :=
  collapsed C30.flatTorus_closed (by decide) torusUp_built (by decide +kernel) ⟨by decide +kernel, by decide +kernel⟩ x

end Verif.C120
