import Verif.Props.C53
import Verif.Props.C92

/-!
# C100: Sampling the saddle connections between two directions
-/

namespace Verif.C100

open Verif Spec Tri FlatTri Examples Vec Real SaddleConnections SaddleSearch SaddleSample

/-- Sampling the saddle connections of a torus between the directions `(2, 1)` and `(1, 1)` never returns, although the saddle
connection `(3, 2)` is between these directions. -/
theorem never_returns (debug : Bool) : ∃ st, run (none : Option (Approx ℤ ℚ)) debug flatTorus 0 (SaddleConnections.make flatTorus) [.vectors ⟨2, 1⟩ ⟨1, 1⟩] = some (.ok st) ∧
    Searched (none : Option (Approx ℤ ℚ)) st (0, ⟨3, 2⟩) ∧ IsSaddleConnection flatTorus 0 ⟨3, 2⟩ 1 ∧
    ∀ ω fuel, sample (none : Option (Approx ℤ ℚ)) debug flatTorus st fuel [ω] = none := by
  obtain ⟨st, h1, -, h3, h4, m, c, h5, -, -, -, -, h6⟩ := C92.never_advances debug
  refine ⟨st, h1, h3, h4, fun ω fuel => ?_⟩
  have h1' : (run (none : Option (Approx ℤ ℚ)) debug flatTorus 0 (SaddleConnections.make flatTorus) [.vectors ⟨2, 1⟩ ⟨1, 1⟩]) =
      some (.ok ⟨[⟨0, some (⟨2, 1⟩, ⟨1, 1⟩)⟩], none, .zero⟩) := by
    cases debug <;> rfl
  rw [h1'] at h1
  injection h1 with h1
  injection h1 with h1
  subst h1
  rw [sample_eq _ (by simp), more]
  have : SaddleSample.increment (none : Option (Approx ℤ ℚ)) debug flatTorus ⟨[⟨0, some (⟨2, 1⟩, ⟨1, 1⟩)⟩], none, .zero⟩ fuel [] ω = none := by
    unfold SaddleSample.increment
    rw [if_neg (by simp)]
    simp only [List.length_singleton, Nat.mod_one, List.getElem?_cons_zero]
    rw [if_neg (by rintro ⟨-, -, k⟩; exact absurd k (by decide))]
    change (start (⟨none, debug, flatTorus, none, .zero⟩ : Params ℤ ℚ) fuel [⟨0, some (⟨2, 1⟩, ⟨1, 1⟩)⟩]).bind _ = none
    cases hs : start (⟨none, debug, flatTorus, none, .zero⟩ : Params ℤ ℚ) fuel [⟨0, some (⟨2, 1⟩, ⟨1, 1⟩)⟩] with
    | none => rfl
    | some r =>
      have k := (C92.start_more hs (fuel + 5) (by omega)).symm.trans (h5 (fuel + 5) (by omega))
      injection k with k
      subst k
      simp only [Option.bind_some]
      change (advance (⟨none, debug, flatTorus, none, .zero⟩ : Params ℤ ℚ) fuel m).bind _ = none
      rw [show advance (⟨none, debug, flatTorus, none, .zero⟩ : Params ℤ ℚ) fuel m = none from h6 fuel]
      rfl
  rw [this]
  rfl

variable {T : Type} [CommRing T] [LinearOrder T] [IsStrictOrderedRing T]
variable {K : Type} [Field K] [LinearOrder K] [IsStrictOrderedRing K]

/-- When sampling in entire corners, each call returns a saddle connection that is admitted by all the restrictions. (Missing:
sampling between two directions, see `never_returns`.) -/
theorem returns_partial {f : T →+* ℝ} (hf : StrictMono f) (A : Option (Approx T K)) {dbg : Bool} {S : FlatTri T}
    (h : Closed dbg S) {θ : HE → ℝ} (hθ : AllCorners f S θ) {fs : List (Restriction T)} (hv : ∀ g ∈ fs, ValidRestriction f S θ g)
    {e : HE} (he : e < S.tri.size) (hs : ∀ g ∈ fs, InSource e g) :
    ∃ N, ∀ fuel ≥ N, ∃ st, run A false S fuel (SaddleConnections.make S) fs = some (.ok st) ∧
      ∀ (debug : Bool) (ω : Choices), (∀ i, (ω.side i).isSome) → ∃ c M, (∀ fuel ≥ M, sample A debug S st fuel [ω] = some (.ok [c])) ∧
        IsSaddleConnection S c.source (S.saddleVector c) c.target ∧ ∀ g ∈ fs, Admits f S θ (c.source, S.saddleVector c) g := by
  obtain ⟨N, hN⟩ := C53.never_repeats hf A h hθ hv he hs
  refine ⟨N, fun fuel hfuel => ?_⟩
  obtain ⟨st, h1, h2⟩ := hN fuel hfuel
  refine ⟨st, h1, fun debug ω hω => ?_⟩
  obtain ⟨L, M, k1, k2, k3, -, k4⟩ := h2 debug [ω] fun ω' hω' => by
    rw [List.mem_singleton] at hω'
    exact hω' ▸ hω
  obtain ⟨c, rfl⟩ := List.length_eq_one_iff.1 k2
  exact ⟨c, M, k1, k3 c (by simp), k4 c (by simp)⟩

/-- The hypotheses can be met by sampling long saddle connections in a corner of a torus. -/
example : ∃ θ : HE → ℝ, AllCorners (Int.castRingHom ℝ) flatTorus θ ∧ Closed true flatTorus ∧ 3 < flatTorus.tri.size ∧
    (∀ g ∈ ([.halfEdge 3, .lowerBound (.ofInt 5)] : List (Restriction ℤ)), ValidRestriction (Int.castRingHom ℝ) flatTorus θ g) ∧
      ∀ g ∈ ([.halfEdge 3, .lowerBound (.ofInt 5)] : List (Restriction ℤ)), InSource 3 g := by
  obtain ⟨θ, hθ⟩ := C39.corners_exist (f := Int.castRingHom ℝ) Int.cast_strictMono C30.flatTorus_closed
  refine ⟨θ, hθ, C30.flatTorus_closed, by decide, fun g hg => ?_, fun g hg => ?_⟩
  · fin_cases hg
    · trivial
    · show (0 : ℤ) ≤ _
      decide
  · fin_cases hg
    · rfl
    · trivial

end Verif.C100
