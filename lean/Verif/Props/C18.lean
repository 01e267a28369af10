import Verif.Lemmas.Flat
import Verif.Lemmas.Examples

/-!
# C18: The construction of a flat triangulation validates the geometry (and C67: opposite vectors)
-/

namespace Verif.C18

open Verif Spec Tri FlatTri Examples

variable {T : Type} [CommRing T] [LinearOrder T] [IsStrictOrderedRing T]
variable {K : Type*} [Field K] [LinearOrder K] [IsStrictOrderedRing K]

/-- When the construction succeeds, there was one vector for each edge and the result is a flat triangulation with these
vectors on the given surface. -/
theorem ofVectors_ok (A : Option (Approx T K)) {dbg : Bool} {C : Tri} (h : C.Reachable dbg) {vs : List (Vec T)}
    {S : FlatTri T} (hS : ofVectors A dbg C vs = .ok S) :
    S.tri.Reachable dbg ∧ Same C S.tri ∧ IsFlat S ∧ C.edges.map S.vec = vs ∧
      ∀ e ∈ C.halfEdges, C.boundary e = false → S.vec e ≠ 0 := by
  obtain ⟨T', h1, h2, h3, -, h5⟩ := construct h.inv.1 A dbg
  rw [h5] at hS
  by_cases h6 : vs.length < C.edges.length
  · rw [if_pos h6] at hS; cases hS
  rw [if_neg h6] at hS
  rcases hc : check A ⟨T', listed vs⟩ with err | u
  · rw [hc] at hS; cases hS
  rw [hc] at hS
  simp only [Except.bind] at hS
  by_cases h7 : vs.length ≠ C.edges.length
  · rw [if_pos h7] at hS; cases hS
  rw [if_neg h7] at hS
  cases hS
  have hF := (isFlat_of_check A h3 (f := listed vs) fun e _ => listed_neg vs e).1 hc
  have hs := same_of_eq h h3 h1 h2
  refine ⟨h3, hs, hF, ?_, fun e he hb h0 => ?_⟩
  · push Not at h7
    have hl := h.inv.1.edges_length
    apply List.ext_getElem (by simp [h7])
    intro i hi1 hi2
    simp only [Tri.edges, List.getElem_map, List.getElem_range, listed, show 2 * i % 2 = 0 by omega, if_true,
      show 2 * i / 2 = i by omega]
    simp [hi2]
  · have := hF.oriented e (by rw [hs.halfEdges]; exact he) (by rw [hs.boundary]; exact hb)
    rw [h0, Vec.cross_zero_left] at this
    exact lt_irrefl _ this

/-- The construction succeeds for all flat triangulations. -/
theorem ofVectors_complete (A : Option (Approx T K)) {dbg : Bool} {C : Tri} (h : C.Reachable dbg) {f : HE → Vec T}
    (hf : IsFlat ⟨C, f⟩) : ∃ S, ofVectors A dbg C (C.edges.map f) = .ok S ∧ ∀ e ∈ C.halfEdges, S.vec e = f e := by
  obtain ⟨T', h1, h2, h3, -, h5⟩ := construct h.inv.1 A dbg
  have hl := h.inv.1.edges_length
  have hn : ∀ e ∈ C.halfEdges, listed (C.edges.map f) e = f e := by
    intro e he
    rw [mem_halfEdges] at he
    unfold listed
    have hd : (C.edges.map f).getD (e / 2) 0 = f (2 * (e / 2)) := by
      rw [List.getD_eq_getElem _ _ (by rw [List.length_map]; omega)]
      simp [Tri.edges]
    rw [hd]
    have hn := neg_def e
    by_cases hp : e % 2 = 0
    · rw [if_pos hp, show 2 * (e / 2) = e by omega]
    · rw [if_neg hp] at hn ⊢
      have := hf.odd e (mem_halfEdges.2 he)
      simp only at this
      rw [show 2 * (e / 2) = neg e by omega, this, _root_.neg_neg]
  have hF := IsFlat.flat (S := ⟨C, f⟩) h hf
  have hc : check A ⟨T', listed (C.edges.map f)⟩ = .ok () := by
    rw [check_transfer A h.inv.1 h3.inv.1 h2, isFlat_of_check A h fun e _ => listed_neg _ e]
    refine Flat.isFlat ⟨h.inv.1, h.inv.2, fun e _ => listed_neg _ e, fun e he => ?_, fun e he => ?_⟩
    · have e0 := mem_halfEdges.2 (h.inv.1.lt_of_not_boundary he)
      have e1 := mem_halfEdges.2 (h.inv.1.lt_of_not_boundary (hF.fwd_ne he))
      have e2 := mem_halfEdges.2 (h.inv.1.lt_of_not_boundary (hF.fwd_ne (hF.fwd_ne he)))
      change listed _ _ + listed _ _ + listed _ _ = 0
      rw [hn e e0, hn _ e1, hn _ e2]
      exact hF.closed e he
    · have e0 := mem_halfEdges.2 (h.inv.1.lt_of_not_boundary he)
      have e1 := mem_halfEdges.2 (h.inv.1.lt_of_not_boundary (hF.fwd_ne he))
      change 0 < Vec.cross (listed _ _) (listed _ _)
      rw [hn e e0, hn _ e1]
      exact hF.oriented e he
  refine ⟨⟨T', listed (C.edges.map f)⟩, ?_, hn⟩
  rw [h5, if_neg (by simp), hc]
  simp [Except.bind]

/-- Otherwise, an exception is thrown. -/
theorem ofVectors_rejects (A : Option (Approx T K)) {dbg : Bool} {C : Tri} (h : C.Reachable dbg) {vs : List (Vec T)}
    (hv : ¬ ∃ f : HE → Vec T, IsFlat ⟨C, f⟩ ∧ vs = C.edges.map f) :
    ofVectors A dbg C vs = .error .invalidArgument ∨ ofVectors A dbg C vs = .error .logicError := by
  obtain ⟨T', h1, h2, h3, -, h5⟩ := construct h.inv.1 A dbg
  cases hS : ofVectors A dbg C vs with
  | ok S =>
    refine absurd ⟨S.vec, ?_, ?_⟩ hv
    · obtain ⟨g1, g2, g3, -⟩ := ofVectors_ok A h hS
      refine ⟨h.isTriangulation, fun e he => g3.odd e (g2.halfEdges ▸ he), fun e he hb => ?_, fun e he hb => ?_⟩
      · have := g3.closed e (g2.halfEdges ▸ he) (by rw [g2.boundary]; exact hb)
        rwa [g2.nextInFace, g2.nextInFace] at this
      · have := g3.oriented e (g2.halfEdges ▸ he) (by rw [g2.boundary]; exact hb)
        rwa [g2.nextInFace] at this
    · exact (ofVectors_ok A h hS).2.2.2.1.symm
  | error err =>
    rw [h5] at hS
    by_cases h6 : vs.length < C.edges.length
    · rw [if_pos h6] at hS; cases hS; right; rfl
    · rw [if_neg h6] at hS
      rcases check_cases A ⟨T', listed vs⟩ with hc | hc
      · rw [hc] at hS
        simp only [Except.bind] at hS
        by_cases h7 : vs.length ≠ C.edges.length
        · rw [if_pos h7] at hS; cases hS; left; rfl
        · rw [if_neg h7] at hS; cases hS
      · rw [hc] at hS
        cases hS; left; rfl

/-- A torus is accepted, but not when its orientation is reversed or its triangles are degenerate. -/
example : ((ofVectors (none : Option (Approx ℤ ℚ)) true torus [⟨1, 0⟩, ⟨0, 1⟩, ⟨1, 1⟩]).toOption.isSome = true) ∧
    ((ofVectors (none : Option (Approx ℤ ℚ)) true torus [⟨1, 0⟩, ⟨0, -1⟩, ⟨1, -1⟩]).toOption.isSome = false) ∧
    ((ofVectors (none : Option (Approx ℤ ℚ)) true torus [⟨1, 0⟩, ⟨1, 0⟩, ⟨2, 0⟩]).toOption.isSome = false) := by
  refine ⟨by decide +kernel, by decide +kernel, by decide +kernel⟩

/-! ### C67: vectors given by a function -/

/-- The full claim (C67): when the construction from a function succeeds, the result is a flat triangulation. -/
def FunctionClaim : Prop :=
  ∀ (dbg : Bool) (C : Tri) (f : HE → Vec ℤ) (S : FlatTri ℤ), C.Reachable dbg →
    ofFunction (none : Option (Approx ℤ ℚ)) dbg C f = .ok S → IsFlat S

/-- If opposite half edges have opposite vectors, the construction succeeds exactly for flat triangulations. -/
theorem ofFunction_partial (A : Option (Approx T K)) {dbg : Bool} {C : Tri} (h : C.Reachable dbg) {f : HE → Vec T}
    (hodd : ∀ e ∈ C.halfEdges, f (neg e) = -f e) :
    (IsFlat ⟨C, f⟩ → ∃ S, ofFunction A dbg C f = .ok S ∧ S.tri.Reachable dbg ∧ Same C S.tri ∧ IsFlat S ∧ S.vec = f) ∧
    (¬ IsFlat ⟨C, f⟩ → ofFunction A dbg C f = .error .invalidArgument) := by
  obtain ⟨T', h1, h2, h3, h4, -⟩ := construct h.inv.1 A dbg
  have hs := same_of_eq h h3 h1 h2
  have hiff := isFlat_of_check A h hodd
  have hiff' := isFlat_of_check A h3 (f := f) (fun e he => hodd e (hs.halfEdges ▸ he))
  have ht := check_transfer A h.inv.1 h3.inv.1 h2 f
  constructor
  · intro hF
    have hc := ht.2 (hiff.2 hF)
    refine ⟨⟨T', f⟩, ?_, h3, hs, hiff'.1 hc, rfl⟩
    rw [h4, hc]; rfl
  · intro hF
    rcases check_cases A ⟨T', f⟩ with hc | hc
    · exact absurd (hiff.1 (ht.1 hc)) hF
    · rw [h4, hc]; rfl

/-- Vectors on the torus which differ on the two sides of each edge. -/
def lopsided (e : HE) : Vec ℤ :=
  match e with
  | 0 => ⟨1, 0⟩ | 2 => ⟨0, 1⟩ | 5 => ⟨-1, -1⟩ | 4 => ⟨2, 2⟩ | 1 => ⟨-2, 0⟩ | 3 => ⟨0, -2⟩ | _ => 0

/-- Two triangles of different sizes are glued to a torus. -/
theorem ofFunction_lopsided :
    ∃ S, torus.Reachable true ∧ ofFunction (none : Option (Approx ℤ ℚ)) true torus lopsided = .ok S ∧
      0 ∈ S.tri.halfEdges ∧ S.vec (neg 0) ≠ -S.vec 0 := by
  obtain ⟨T', h1, h2, h3, h4, -⟩ := construct (torus_reachable true).inv.1 (none : Option (Approx ℤ ℚ)) true
  refine ⟨⟨T', lopsided⟩, torus_reachable _, ?_, ?_, by change lopsided (neg 0) ≠ -lopsided 0; decide⟩
  · rw [h4, (check_transfer none (torus_reachable true).inv.1 h3.inv.1 h2 lopsided).2]
    · rfl
    · decide +kernel
  · change 0 ∈ T'.halfEdges
    rw [mem_halfEdges]
    unfold Tri.size
    rw [h1]
    decide

theorem function_fails : ¬ FunctionClaim := by
  intro hc
  obtain ⟨S, h1, h2, h3, h4⟩ := ofFunction_lopsided
  exact h4 ((hc _ _ _ _ h1 h2).odd 0 h3)

end Verif.C18
