import Verif.Spec.HalfEdgeIntersection
import Verif.Lemmas.FlatExamples
import Verif.Lemmas.Vector

/-!
# C51: Half edge intersections are ordered along the half edge

Sorting intersections of saddle connections with a half edge orders them by their position along the half edge.
-/

namespace Verif.C51

open Verif Spec HalfEdgeIntersection Examples

variable {T : Type} [CommRing T] [LinearOrder T] [IsStrictOrderedRing T] {f : T →+* ℝ}

/-- The projective coordinates of the intersection point. -/
theorem projective_eq (i : HalfEdgeIntersection T) : i.projective =
    (Vec.cross i.direction i.base * i.along.x, Vec.cross i.direction i.base * i.along.y,
      Vec.cross i.direction i.along) := by
  simp only [projective, Vec.cross, Prod.mk.injEq]
  exact ⟨by ring, by ring, by ring⟩

/-- The position of the intersection, as a quotient of cross products. -/
theorem position {i : HalfEdgeIntersection T} {t : ℝ} (h : CrossesAt f i t) :
    f (Vec.cross i.direction i.base) = t * f (Vec.cross i.direction i.along) := by
  obtain ⟨-, -, s, -, h⟩ := h
  have hx : f i.base.x + f i.direction.x * s = f i.along.x * t := congrArg Vec.x h
  have hy : f i.base.y + f i.direction.y * s = f i.along.y * t := congrArg Vec.y h
  simp only [Vec.cross, map_sub, map_mul]
  linear_combination f i.direction.x * hy - f i.direction.y * hx

/-- The fraction that is computed for an intersection exists, and it is the position of the intersection along the half
edge. -/
theorem relative_position (hf : StrictMono f) (dbg : Bool) {i : HalfEdgeIntersection T} {t : ℝ} (h : CrossesAt f i t)
    (hl : FromLeft i) : ∃ r, i.relative dbg = .ok r ∧ f r.2 ≠ 0 ∧ t = f r.1 / f r.2 ∧
      r = if i.along.x ≠ 0 then (Vec.cross i.direction i.base * i.along.x, Vec.cross i.direction i.along * i.along.x)
        else (Vec.cross i.direction i.base * i.along.y, Vec.cross i.direction i.along * i.along.y) := by
  have h1 : 0 < Vec.cross i.direction i.along := by
    have : Vec.cross i.along i.direction < 0 := hl
    simp only [Vec.cross] at this ⊢
    linarith [mul_comm i.along.x i.direction.y, mul_comm i.along.y i.direction.x]
  have h2 := position h
  have h1' : 0 < f (Vec.cross i.direction i.along) := by simpa using hf h1
  have h3 : Vec.cross i.direction i.base ≠ 0 := by
    intro h0
    rw [h0, map_zero] at h2
    exact absurd h2 (mul_pos h.1 h1').ne
  have hxy : i.along.x ≠ 0 ∨ i.along.y ≠ 0 := by
    by_contra hc
    push Not at hc
    simp [Vec.cross, hc.1, hc.2] at h1
  have h0 : ∀ x : T, x ≠ 0 → f x ≠ 0 := fun x hx h => hx (hf.injective (by rw [h, map_zero]))
  unfold relative
  simp only [projective_eq]
  by_cases hx : i.along.x = 0
  · have hy : i.along.y ≠ 0 := by tauto
    refine ⟨_, by simp [hx, hy, h1.ne', h3]; rfl, ?_, ?_, by simp [hx]⟩
    · simpa using ⟨h0 _ h1.ne', h0 _ hy⟩
    · have := h0 _ hy
      simp only [map_mul, h2]
      field_simp
  · refine ⟨_, by simp [hx, h1.ne', h3]; rfl, ?_, ?_, by simp [hx]⟩
    · simpa using ⟨h0 _ h1.ne', h0 _ hx⟩
    · have := h0 _ hx
      simp only [map_mul, h2]
      field_simp

/-- Intersections with a half edge are compared by their position along the half edge. -/
theorem lt_iff (hf : StrictMono f) (dbg : Bool) {i j : HalfEdgeIntersection T} {t u : ℝ} (hi : CrossesAt f i t)
    (hj : CrossesAt f j u) (hil : FromLeft i) (hjl : FromLeft j) (hs : i.surface = j.surface)
    (he : i.halfEdge = j.halfEdge) : ∃ b, lt dbg i j = .ok b ∧ (b = true ↔ t < u) := by
  obtain ⟨r, hr, hr0, rfl, er⟩ := relative_position hf dbg hi hil
  obtain ⟨s, hs', hs0, rfl, es⟩ := relative_position hf dbg hj hjl
  refine ⟨_, by simp only [lt, hr, hs']; rfl, ?_⟩
  have ha : i.along = j.along := by simp only [along, hs, he]
  have hp : ∀ k : HalfEdgeIntersection T, FromLeft k → 0 < Vec.cross k.direction k.along := by
    intro k hl
    have : Vec.cross k.along k.direction < 0 := hl
    simp only [Vec.cross] at this ⊢
    linarith [mul_comm k.along.x k.direction.y, mul_comm k.along.y k.direction.x]
  have hpos : 0 < r.2 * s.2 := by
    have h1 : r.2 ≠ 0 := fun h => hr0 (by rw [h, map_zero])
    rw [er, ha] at h1 ⊢
    rw [es]
    have hi' := hp i hil
    have hj' := hp j hjl
    rw [ha] at hi'
    split_ifs at h1 ⊢ with hx
    · have := mul_pos (mul_pos hi' hj') (mul_self_pos.2 hx)
      convert this using 1
      ring
    · have hy : j.along.y ≠ 0 := fun h => h1 (by simp [h])
      have := mul_pos (mul_pos hi' hj') (mul_self_pos.2 hy)
      convert this using 1
      ring
  have hpos' : 0 < f r.2 * f s.2 := by simpa using hf hpos
  rw [decide_eq_true_iff, ← hf.lt_iff_lt, map_mul, map_mul]
  have key : f r.1 / f r.2 < f s.1 / f s.2 ↔ (f r.1 / f r.2) * (f r.2 * f s.2) < (f s.1 / f s.2) * (f r.2 * f s.2) :=
    (mul_lt_mul_iff_left₀ hpos').symm
  rw [key]
  have e1 : f r.1 / f r.2 * (f r.2 * f s.2) = f r.1 * f s.2 := by field_simp
  have e2 : f s.1 / f s.2 * (f r.2 * f s.2) = f s.1 * f r.2 := by field_simp
  rw [e1, e2]

/-- A list of intersections with a half edge is sorted exactly if their positions along the half edge are sorted. -/
theorem sorted_iff (hf : StrictMono f) (dbg : Bool) {S : FlatTri T} {e : HE} {L : List (HalfEdgeIntersection T)}
    {t : HalfEdgeIntersection T → ℝ} (h : ∀ i ∈ L, CrossesAt f i (t i) ∧ FromLeft i ∧ i.surface = S ∧ i.halfEdge = e) :
    L.Pairwise (fun i j => lt dbg j i = .ok false) ↔ L.Pairwise fun i j => t i ≤ t j := by
  refine List.Pairwise.iff_of_mem fun {i j} hi hj => ?_
  obtain ⟨hi1, hi2, hi3, hi4⟩ := h i hi
  obtain ⟨hj1, hj2, hj3, hj4⟩ := h j hj
  obtain ⟨b, hb, hbt⟩ := lt_iff hf dbg hj1 hi1 hj2 hi2 (hj3.trans hi3.symm) (hj4.trans hi4.symm)
  rw [hb, ← not_lt, ← hbt]
  cases b <;> simp

/-- The crossings with half edge `1` of the saddle connection `(2, 3)` of the torus. -/
example : CrossesAt (Int.castRingHom ℝ) (make flatTorus ⟨-1, -1⟩ 1 ⟨2, 3⟩) (1 / 3) ∧
    CrossesAt (Int.castRingHom ℝ) (make flatTorus ⟨-2, -2⟩ 1 ⟨2, 3⟩) (2 / 3) ∧
    FromLeft (make flatTorus ⟨-1, -1⟩ 1 ⟨2, 3⟩) ∧ FromLeft (make flatTorus ⟨-2, -2⟩ 1 ⟨2, 3⟩) := by
  refine ⟨⟨by norm_num, by norm_num, 1 / 3, by norm_num, ?_⟩, ⟨by norm_num, by norm_num, 2 / 3, by norm_num, ?_⟩,
    by unfold FromLeft; decide, by unfold FromLeft; decide⟩
  · ext
    · change (Int.castRingHom ℝ) (-1) + (Int.castRingHom ℝ) 2 * (1 / 3) = (Int.castRingHom ℝ) (-1) * (1 / 3)
      norm_num
    · change (Int.castRingHom ℝ) (-1) + (Int.castRingHom ℝ) 3 * (1 / 3) = (Int.castRingHom ℝ) 0 * (1 / 3)
      norm_num
  · ext
    · change (Int.castRingHom ℝ) (-2) + (Int.castRingHom ℝ) 2 * (2 / 3) = (Int.castRingHom ℝ) (-1) * (2 / 3)
      norm_num
    · change (Int.castRingHom ℝ) (-2) + (Int.castRingHom ℝ) 3 * (2 / 3) = (Int.castRingHom ℝ) 0 * (2 / 3)
      norm_num

example : lt true (make flatTorus ⟨-1, -1⟩ 1 ⟨2, 3⟩) (make flatTorus ⟨-2, -2⟩ 1 ⟨2, 3⟩) = .ok true := rfl

end Verif.C51
