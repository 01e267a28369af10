import Verif.Props.C54

/-!
# C96: A point can be given by Cartesian coordinates relative to a vertex
-/

namespace Verif.C96

open Verif Spec Tri FlatTri Vec Move Examples

variable {T : Type} [CommRing T] [LinearOrder T] [IsStrictOrderedRing T]
variable {K : Type} [Field K] [LinearOrder K] [IsStrictOrderedRing K]
variable {f : T →+* ℝ} {dbg : Bool} {S : FlatTri T} {div : T → T → Option T} {d p : Point T} {v : Vec T}

theorem normalize_normal (hp : Normal S p) : S.normalize p = .ok p := by
  unfold FlatTri.normalize
  dsimp only
  rw [if_neg hp.pos.ne', if_neg (by rw [not_or, not_or]; exact ⟨hp.nonneg.1.not_gt, hp.nonneg.2.1.not_gt, hp.nonneg.2.2.not_gt⟩),
    if_neg hp.pos.not_gt]
  rcases hp.normal with k | k
  · rw [if_pos k]
  · rw [if_neg (fun k' => k'.2.2.ne' k.1)]
    unfold normalizeLoop
    rw [if_neg (by rw [not_or, not_not]; exact ⟨k.1, k.2.ne'⟩)]

/-- The coordinates are those of a point in the face or they are in the sector which starts at the half edge and ends before the next half edge. Then the point
is the endpoint of the segment, or an error is reported if there is a vertex on the way whose total angle is not 2π.

Missing are the coordinates that are a multiple of the next half edge at the vertex, see `logic_error`; and the coordinates that are parallel to a half edge if there is
a vertex whose total angle is not 2π. -/
theorem endpoint_partial (hf : StrictMono f) (A : Option (Approx T K)) (h : Closed dbg S) (hdiv : TrueDivision div)
    (elsewhere : Point T → Vec T → Option (Except Err (Point T))) {e : HE} (he : e < S.tri.size)
    (hv : 0 ≤ cross (S.vec e) v ∧ 0 < cross v (S.vec (S.tri.nextAtVertex e)) ∨ InTriangle f S e (v.map f))
    (hfree : (∀ y < S.tri.size, MarkedPoint f S y) ∨ ∀ y < S.tri.size, cross (S.vec y) v ≠ 0) :
    ∃ N, ∀ fuel ≥ N,
      (∃ p d', S.pointFrom A dbg div elsewhere fuel e v = some (.ok p) ∧ C30.Created dbg S d' p ∧
        Travels f S (MarkedPoint f S) (v.map f) 1 (e, 0) (d'.face, planePosition f S d')) ∨
      S.pointFrom A dbg div elsewhere fuel e v = some (.error .invalidArgument) ∧
        ∃ t μ, ¬MarkedPoint f S t ∧ 0 < μ ∧ μ < 1 ∧ Travels f S (MarkedPoint f S) (v.map f) μ (e, 0) (t, 0) := by
  obtain ⟨N, hN⟩ := moveImpl_sector A dbg h hf hdiv elsewhere v hfree
  refine ⟨N, fun fuel hfuel => ?_⟩
  have hsec : S.inSector A e v = true ∨ InTriangle f S e (v.map f) := by
    rcases hv with ⟨k1, k2⟩ | k
    · refine .inl ((inSector_iff A S e v).2 ⟨not_lt.2 k1, ?_⟩)
      rw [cross_comm] at k2
      exact neg_pos.1 k2
    · exact .inr k
  unfold pointFrom
  rw [if_neg (not_le.2 he)]
  rcases hN e 1 he one_pos hsec fuel hfuel fuel hfuel with ⟨p, p1, p2, d', p3, p4, p5⟩ | ⟨p1, t, μ, ⟨-, p2, p3, p4⟩, p5⟩
  · refine .inl ⟨p, d', ?_, C54.created p3 p4, p5⟩
    rw [p1]
    show some (S.normalize p) = _
    rw [normalize_normal p2]
  · refine .inr ⟨?_, t, μ, p5, p2, p3, p4⟩
    rw [p1]
    rfl

/-- Coordinates in the other directions are rejected. -/
theorem rejects (A : Option (Approx T K)) (h : Closed dbg S) (elsewhere : Point T → Vec T → Option (Except Err (Point T))) {e : HE} (he : e < S.tri.size)
    (hv : cross (S.vec e) v < 0 ∨ cross v (S.vec (S.tri.nextAtVertex e)) < 0) (fuel : ℕ) :
    S.pointFrom A dbg div elsewhere (fuel + 1) e v = some (.error .invalidArgument) := by
  unfold pointFrom
  rw [if_neg (not_le.2 he)]
  unfold moveImpl
  have hface : S.faceInto A (⟨e, 1, 0, 0⟩ : Point T) v = ⟨e, 1, 0, 0⟩ := by simp [faceInto]
  simp only [hface]
  rw [if_neg (by simp), if_pos]
  · rfl
  · refine ⟨True.intro, True.intro, ?_⟩
    rintro ⟨k1, k2⟩
    rcases hv with k | k
    · exact k1 (by rw [ccw_eq, ccwExact_clockwise]; exact k)
    · refine k2 ?_
      rw [ccw_eq, ccwExact_ccw, cross_comm]
      exact neg_pos.2 k

example : (bigTorus.tri.nextAtVertex 0 = 4 ∧ 0 ≤ cross (bigTorus.vec 0) ⟨7, 3⟩ ∧ 0 < cross ⟨7, 3⟩ (bigTorus.vec (bigTorus.tri.nextAtVertex 0))) ∧
    (∀ y < bigTorus.tri.size, MarkedPoint (Int.castRingHom ℝ) bigTorus y) ∧
    bigTorus.pointFrom (none : Option (Approx ℤ ℚ)) true C31.intDiv (fun _ _ => none) 30 0 ⟨7, 3⟩ = some (.ok ⟨1, 3, 6, 0⟩) ∧
    cross (bigTorus.vec 0) ⟨7, -3⟩ < 0 :=
  ⟨by decide, bigTorus_marked, by decide +kernel, by decide⟩

/-- The vector (4, 4) is a multiple of the half edge 4 = (3, 3) on a torus. The same coordinates are fine for a release build but a debug build throws a
`logic_error`. -/
theorem logic_error : bigTorus.tri.nextAtVertex 0 = 4 ∧ bigTorus.vec 4 = ⟨3, 3⟩ ∧ (∀ y < bigTorus.tri.size, MarkedPoint (Int.castRingHom ℝ) bigTorus y) ∧
    bigTorus.pointFrom (none : Option (Approx ℤ ℚ)) true C31.intDiv (fun _ _ => none) 30 0 ⟨4, 4⟩ = some (.error .logicError) ∧
    bigTorus.pointFrom (none : Option (Approx ℤ ℚ)) false C31.intDiv (fun _ _ => none) 30 0 ⟨4, 4⟩ = some (.ok ⟨5, 3, 6, 0⟩) :=
  ⟨rfl, rfl, bigTorus_marked, by decide +kernel, by decide +kernel⟩

end Verif.C96
