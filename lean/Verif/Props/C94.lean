import Verif.Props.C54

/-!
# C94: Moving a point across a singularity is refused
-/

namespace Verif.C94

open Verif Spec Tri FlatTri Vec Move Examples

variable {T : Type} [CommRing T] [LinearOrder T] [IsStrictOrderedRing T]
variable {K : Type} [Field K] [LinearOrder K] [IsStrictOrderedRing K]
variable {f : T →+* ℝ} {dbg : Bool} {S : FlatTri T} {div : T → T → Option T} {d p : Point T} {v : Vec T}

/-- In a debug build and in a release build, a marked vertex can be moved beyond a vertex with total angle 6π: the vector (2, 4) is
twice the half edge 22 which ends at the source of the half edge 13. -/
theorem crosses_singularity (dbg : Bool) :
    C30.Created dbg markedEll ⟨22, 1, 0, 0⟩ ⟨22, 1, 0, 0⟩ ∧ MarkedPoint (Int.castRingHom ℝ) markedEll 22 ∧
    Travels (Int.castRingHom ℝ) markedEll (MarkedPoint (Int.castRingHom ℝ) markedEll) ((⟨2, 4⟩ : Vec ℤ).map (Int.castRingHom ℝ)) (1 / 2) (22, 0) (13, 0) ∧
    ¬MarkedPoint (Int.castRingHom ℝ) markedEll 13 ∧
    markedEll.movePoint (none : Option (Approx ℤ ℚ)) dbg C31.intDiv (fun _ _ => none) 30 ⟨22, 1, 0, 0⟩ ⟨2, 4⟩ = some (.ok ⟨16, 3, 3, 3⟩) := by
  refine ⟨⟨⟨by decide, by decide, by decide⟩, rfl⟩, markedEll_marked, ?_, markedEll_singular, by cases dbg <;> decide +kernel⟩
  have h0 : markedEll.vec 22 = ⟨1, 2⟩ := rfl
  have h1 : markedEll.tri.nextInFace 22 = 13 := rfl
  have e1 : (0 : Vec ℝ) + (1 / 2 : ℝ) • (⟨2, 4⟩ : Vec ℤ).map (Int.castRingHom ℝ) = (markedEll.vec 22).map (Int.castRingHom ℝ) := by
    rw [h0]
    ext <;> simp [Vec.map] <;> norm_num
  have hmem : ∀ w : Vec ℝ, InTriangle (Int.castRingHom ℝ) markedEll 22 w ↔ 0 ≤ w.y - 2 * w.x ∧ 0 ≤ -3 * (w.y - 2) + 3 * (w.x - 1) ∧ 0 ≤ 2 * w.y - w.x := by
    intro w
    have h2 : markedEll.vec (markedEll.tri.nextInFace 22) = ⟨-3, -3⟩ := rfl
    have h3 : markedEll.vec (markedEll.tri.nextInFace (markedEll.tri.nextInFace 22)) = ⟨2, 1⟩ := rfl
    unfold InTriangle
    rw [h0, h2, h3]
    simp only [Vec.map, cross, sub_x, sub_y, eq_intCast]
    push_cast
    constructor <;> intro ⟨k1, k2, k3⟩ <;> refine ⟨?_, ?_, ?_⟩ <;> linarith
  have m1 : Travels (Int.castRingHom ℝ) markedEll (MarkedPoint (Int.castRingHom ℝ) markedEll) ((⟨2, 4⟩ : Vec ℤ).map (Int.castRingHom ℝ)) (1 / 2) (22, 0)
      (22, 0 + (1 / 2 : ℝ) • (⟨2, 4⟩ : Vec ℤ).map (Int.castRingHom ℝ)) := by
    refine .move (by norm_num) ((hmem _).2 ?_) ((hmem _).2 ?_)
    · norm_num
    · rw [e1, h0]
      simp only [Vec.map, eq_intCast]
      norm_num
  have m2 := m1.trans (r := (13, 0)) (u := 0) (by
    rw [e1]
    have := Travels.rotate (f := Int.castRingHom ℝ) (S := markedEll) (free := MarkedPoint (Int.castRingHom ℝ) markedEll)
      (v := (⟨2, 4⟩ : Vec ℤ).map (Int.castRingHom ℝ)) (e := 22) (w := (markedEll.vec 22).map (Int.castRingHom ℝ))
    rwa [h1, sub_self] at this)
  rwa [add_zero] at m2

/-- If a vertex is moved in a direction that is not parallel to a half edge, then we get to the result without crossing a vertex whose total
angle is not 2π. Missing are the directions that are parallel to a half edge, see `crosses_singularity`. -/
theorem refused_partial (hf : StrictMono f) (A : Option (Approx T K)) (h : Closed dbg S) (hdiv : TrueDivision div)
    (elsewhere : Point T → Vec T → Option (Except Err (Point T))) (hp : C30.Created dbg S d p) {V : Finset HE}
    (hV : S.vertexOf p = some V) (hv : v ≠ 0) (hfree : ∀ y < S.tri.size, cross (S.vec y) v ≠ 0) :
    ∃ N, ∀ fuel ≥ N, ∃ r, S.movePoint A dbg div elsewhere fuel p v = some r ∧ (r = .error .invalidArgument ∨ ∃ p', r = .ok p') ∧
      ∀ p', r = .ok p' → ∃ e ∈ V, ∃ d', C30.Created dbg S d' p' ∧
        Travels f S (MarkedPoint f S) (v.map f) 1 (e, 0) (d'.face, planePosition f S d') := by
  obtain ⟨N, hN⟩ := C54.vertex_partial hf A h hdiv elsewhere hp hV hv (.inr hfree)
  refine ⟨N, fun fuel hfuel => ?_⟩
  rcases hN fuel hfuel with ⟨-, k⟩ | ⟨-, e, he, -, -, ⟨p', d', k1, k2, k3⟩ | ⟨k, -⟩⟩
  · exact ⟨_, k, .inl rfl, fun p' hp' => by cases hp'⟩
  · refine ⟨_, k1, .inr ⟨_, rfl⟩, fun q hq => ?_⟩
    injection hq with hq
    exact ⟨e, he, d', hq ▸ k2, k3⟩
  · exact ⟨_, k, .inl rfl, fun p' hp' => by cases hp'⟩

example : C30.Created true markedEll ⟨22, 1, 0, 0⟩ ⟨22, 1, 0, 0⟩ ∧ (markedEll.vertexOf ⟨22, 1, 0, 0⟩).isSome ∧
    (∀ y < markedEll.tri.size, cross (markedEll.vec y) ⟨1, 5⟩ ≠ 0) :=
  ⟨⟨⟨by decide, by decide, by decide⟩, rfl⟩, by decide, by decide +kernel⟩

end Verif.C94
