import Verif.Props.C53

/-!
# C98: Sampling without any corners to search is an error
-/

namespace Verif.C98

open Verif Spec Tri FlatTri Examples Vec Real SaddleConnections SaddleSearch SaddleSample

/-- If nothing is left to search, then it is undefined behavior to start sampling. -/
theorem empty_undefined (debug : Bool) (fuel : ℕ) (ω : Choices) :
    ∃ st, run (none : Option (Approx ℤ ℚ)) debug flatTorus fuel (SaddleConnections.make flatTorus) [.halfEdge 0, .halfEdge 2] = some (.ok st) ∧
      sample (none : Option (Approx ℤ ℚ)) debug flatTorus st fuel [ω] = some (.error .undefined) :=
  ⟨_, rfl, rfl⟩

variable {T : Type} [CommRing T] [LinearOrder T] [IsStrictOrderedRing T]
variable {K : Type} [Field K] [LinearOrder K] [IsStrictOrderedRing K]

/-- If there is a corner left to search, then sampling does not run into undefined behavior, and actually reports no error at all.
(Missing: an error if there is nothing left to search, see `empty_undefined`.) -/
theorem no_error_partial {f : T →+* ℝ} (hf : StrictMono f) (A : Option (Approx T K)) {dbg : Bool} {S : FlatTri T}
    (h : Closed dbg S) {θ : HE → ℝ} (hθ : AllCorners f S θ) {fs : List (Restriction T)} (hv : ∀ g ∈ fs, ValidRestriction f S θ g)
    {e : HE} (he : e < S.tri.size) (hs : ∀ g ∈ fs, InSource e g) :
    ∃ N, ∀ fuel ≥ N, ∃ st, run A false S fuel (SaddleConnections.make S) fs = some (.ok st) ∧
      ∀ (debug : Bool) (ω : Choices), (∀ i, (ω.side i).isSome) → ∃ c M, ∀ fuel ≥ M, sample A debug S st fuel [ω] = some (.ok [c]) := by
  obtain ⟨N, hN⟩ := C53.never_repeats hf A h hθ hv he hs
  refine ⟨N, fun fuel hfuel => ?_⟩
  obtain ⟨st, h1, h2⟩ := hN fuel hfuel
  refine ⟨st, h1, fun debug ω hω => ?_⟩
  obtain ⟨L, M, k1, k2, -⟩ := h2 debug [ω] fun ω' hω' => by
    rw [List.mem_singleton] at hω'
    exact hω' ▸ hω
  obtain ⟨c, rfl⟩ := List.length_eq_one_iff.1 k2
  exact ⟨c, M, k1⟩

/-- The hypotheses can be met by sampling at all the vertices of a torus. -/
example : ∃ θ : HE → ℝ, AllCorners (Int.castRingHom ℝ) flatTorus θ ∧ Closed true flatTorus ∧ 3 < flatTorus.tri.size ∧
    (∀ g ∈ ([] : List (Restriction ℤ)), ValidRestriction (Int.castRingHom ℝ) flatTorus θ g) ∧ ∀ g ∈ ([] : List (Restriction ℤ)), InSource 3 g := by
  obtain ⟨θ, hθ⟩ := C39.corners_exist (f := Int.castRingHom ℝ) Int.cast_strictMono C30.flatTorus_closed
  exact ⟨θ, hθ, C30.flatTorus_closed, by decide, by simp, by simp⟩

end Verif.C98
