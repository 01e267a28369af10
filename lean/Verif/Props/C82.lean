import Verif.Props.C39

/-!
# C82: Restrictions to sectors can be combined

The assertions in the beginning of `Sector::refine`, saddle_connections.cc:199-200, are meant to say that the sector is
part of the corner at its half edge. However, the first of them compares in the wrong direction. It fails for all sectors
that do not start at the half edge itself. Since assertions are only checked in debug builds, the property holds in
release builds.
-/

namespace Verif.C82

open Verif Spec Tri FlatTri Examples Vec Real SaddleConnections

variable {T : Type} [CommRing T] [LinearOrder T] [IsStrictOrderedRing T]
variable {K : Type} [Field K] [LinearOrder K] [IsStrictOrderedRing K]

/-- The property: all sequences of meaningful restrictions succeed. -/
def Combines (dbg : Bool) : Prop := ∀ (θ : HE → ℝ) (S : FlatTri ℤ) (fs : List (Restriction ℤ)), Closed true S →
  AllCorners (Int.castRingHom ℝ) S θ → (∀ g ∈ fs, ValidRestriction (Int.castRingHom ℝ) S θ g) →
  ∃ N, ∀ fuel ≥ N, ∃ st, run (none : Option (Approx ℤ ℚ)) dbg S fuel (make S) fs = some (.ok st)

/-- Restricting the search twice to the same sector fails in debug builds, although each vector is fine. -/
theorem twice_fails (fuel : ℕ) : run (none : Option (Approx ℤ ℚ)) true flatTorus fuel (make flatTorus)
    [.vectors ⟨2, 1⟩ ⟨-1, 2⟩, .vectors ⟨2, 1⟩ ⟨-1, 2⟩] = some (.error .logicError) := rfl

/-- Hence, restrictions to sectors cannot be combined in debug builds. -/
theorem not_combines : ¬ Combines true := by
  intro hc
  obtain ⟨θ, hθ⟩ := C39.corners_exist (f := Int.castRingHom ℝ) Int.cast_strictMono C30.flatTorus_closed
  obtain ⟨N, hN⟩ := hc θ flatTorus [.vectors ⟨2, 1⟩ ⟨-1, 2⟩, .vectors ⟨2, 1⟩ ⟨-1, 2⟩] C30.flatTorus_closed hθ (by
    intro g hg
    fin_cases hg
    · exact ⟨by decide, by decide⟩
    · exact ⟨by decide, by decide⟩)
  obtain ⟨st, hst⟩ := hN N le_rfl
  rw [twice_fails] at hst
  cases hst

/-- In release builds, restrictions can be combined. -/
theorem combines_partial : Combines false := by
  intro θ S fs h hθ hv
  obtain ⟨N, hN⟩ := C39.filters_intersect Int.cast_strictMono (none : Option (Approx ℤ ℚ)) h hθ hv
  exact ⟨N, fun fuel hfuel => ⟨_, (hN fuel hfuel).choose_spec.1⟩⟩

/-- In debug builds, sequences of restrictions succeed if at most one of them is to a sector given by vectors or by saddle
connections. -/
theorem combines_once_partial {f : T →+* ℝ} (hf : StrictMono f) (A : Option (Approx T K)) {dbg : Bool} {S : FlatTri T}
    (h : Closed dbg S) {θ : HE → ℝ} (hθ : AllCorners f S θ) {pre post : List (Restriction T)} {g : Restriction T}
    (hv : ∀ x ∈ pre ++ g :: post, ValidRestriction f S θ x)
    (h1 : ∀ x ∈ pre ++ post, (∀ b e, x ≠ .vectors b e) ∧ ∀ b e, x ≠ .connections b e) :
    ∃ N, ∀ fuel ≥ N, ∃ st, run A true S fuel (make S) (pre ++ g :: post) = some (.ok st) := by
  have hcount : (pre ++ g :: post).countP directional ≤ 1 := by
    have h0 : (pre ++ post).countP directional = 0 := by
      rw [List.countP_eq_zero]
      intro x hx
      obtain ⟨k1, k2⟩ := h1 x hx
      cases x with
      | vectors b e => exact absurd rfl (k1 b e)
      | connections b e => exact absurd rfl (k2 b e)
      | _ => simp [directional]
    rw [List.countP_append] at h0
    rw [List.countP_append, List.countP_cons]
    split_ifs <;> omega
  obtain ⟨N, hN⟩ := C39.filters_intersect hf A h hθ hv
  refine ⟨N, fun fuel hfuel => ?_⟩
  obtain ⟨st, hst, -⟩ := hN fuel hfuel
  refine ⟨st, ?_⟩
  rw [run_whole A (cor h.shut hf hθ) hcount, hst]
  intro s hs
  obtain ⟨e, he, rfl⟩ := List.mem_map.1 hs
  exact ⟨List.mem_range.1 he, rfl⟩

/-- Such calls can actually restrict the search. -/
example : ∃ st, run (none : Option (Approx ℤ ℚ)) true flatTorus 0 (make flatTorus)
    [.halfEdge 0, .bound (.ofInt 7), .vectors ⟨2, 1⟩ ⟨-1, 2⟩, .lowerBound (.ofInt 2)] = some (.ok st) ∧ st.sectors ≠ [] :=
  ⟨⟨[⟨0, some (⟨2, 1⟩, ⟨1, 1⟩)⟩], some (.ofInt 7), .ofInt 2⟩, rfl, by simp⟩

end Verif.C82
