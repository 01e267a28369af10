import Verif.Lemmas.LinearDeformation

/-!
# C84: linear deformations that reverse the orientation do not map points correctly

The property is that `applyMatrix(...)(point)` is the point at the image of the position also for matrices with negative
determinant. This only holds for points on edges.
-/

namespace Verif.C84

open Verif Spec Tri FlatTri Examples Vec

variable {T : Type} [CommRing T] [LinearOrder T] [IsStrictOrderedRing T]
variable {K : Type*} [Field K] [LinearOrder K] [IsStrictOrderedRing K]
variable {dbg : Bool} {S S' : FlatTri T} {a b c d : T}

/-- For points on edges, the result is at the image of the position. -/
theorem point_partial (A : Option (Approx T K)) (h : Closed dbg S) (hm : S.applyMatrix A dbg a b c d = .ok S')
    (hd : a * d - b * c < 0) {δ p : Point T} (hp : C30.Created dbg S δ p) (ho : ∃ e x y, SamePosition S δ ⟨e, x, y, 0⟩) :
    ∃ δ' p', linearPoint dbg S S' p = .ok p' ∧ C30.Created dbg S' δ' p' ∧
      SamePosition S' (imagePosition (a * d - b * c) δ) δ' := by
  have hl := LinearImage.of_ok A h hm
  obtain ⟨hn, hs⟩ := hp.normal h
  obtain ⟨p', h1, h2⟩ := hl.point hn.toDescribes
  refine ⟨p, p', h1, h2, (hl.same hs).trans ?_⟩
  unfold imagePosition
  rw [if_neg (not_lt.2 hd.le)]
  obtain ⟨e, x, y, hxy⟩ := ho
  have hc := Normal.weights h hp hxy
  obtain ⟨g, x, y, z⟩ := p
  cases hc
  exact SamePosition.glue.symm

/-- For points in the interior of a face, the result is never at the image of the position. -/
theorem inner_point_wrong (A : Option (Approx T K)) (h : Closed dbg S) (hm : S.applyMatrix A dbg a b c d = .ok S')
    (hd : a * d - b * c < 0) {e : HE} {x y z : T} {p : Point T} (hx : 0 < x) (hy : 0 < y) (hz : 0 < z)
    (hp : C30.Created dbg S ⟨e, x, y, z⟩ p) :
    ∃ δ' p', linearPoint dbg S S' p = .ok p' ∧ C30.Created dbg S' δ' p' ∧
      ¬ SamePosition S' (imagePosition (a * d - b * c) ⟨e, x, y, z⟩) δ' := by
  have hl := LinearImage.of_ok A h hm
  have hpe : p = ⟨e, x, y, z⟩ := by
    have := hp.2
    unfold FlatTri.point FlatTri.normalize at this
    have hlt := hp.1.lt
    have hs := hp.1.pos
    simp only at this hlt hs
    rw [if_neg (not_le.2 hlt), if_neg hs.ne', if_neg (by simp [hx.le, hy.le, hz.le]), if_neg (not_lt.2 hs.le),
      if_pos ⟨hx, hy, hz⟩] at this
    injection this with this
    exact this.symm
  obtain ⟨p', h1, h2⟩ := hl.point hp.1
  rw [← hpe] at h1
  refine ⟨_, p', h1, h2, fun hs => ?_⟩
  unfold imagePosition at hs
  rw [if_neg (not_lt.2 hd.le)] at hs
  have he : e < S'.tri.size := h2.1.lt
  have hn := hl.closed'.shut.ne he
  rcases C30.inner_face hl.closed' he ⟨hx, hy, hz⟩ hs.symm with h3 | h3 | h3
  · exact hn.2.2.2.1 h3
  · exact hn.2.2.2.2.1 h3
  · exact hn.2.2.2.2.2 h3

/-- The torus and the reflection at the diagonal. -/
example : ∃ S' p, flatTorus.applyMatrix (none : Option (Approx ℤ ℚ)) true 0 1 1 0 = .ok S' ∧
    C30.Created true flatTorus ⟨5, 2, 3, 1⟩ p ∧ (0 : ℤ) * 0 - 1 * 1 < 0 := by
  obtain ⟨S', h, -⟩ := C22.applyMatrix_correct (none : Option (Approx ℤ ℚ)) (torus_reachable true) flatTorus_isFlat
    (by decide +kernel) (a := 0) (b := 1) (c := 1) (d := 0) (by decide)
  exact ⟨S', _, h, ⟨⟨by decide, by decide, by decide⟩, rfl⟩, by decide⟩

end Verif.C84
