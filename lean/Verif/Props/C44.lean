import Verif.Lemmas.VerticalCache
import Verif.Lemmas.FlatExamples

/-!
# C44: classification of faces with respect to a vertical
-/

namespace Verif.C44

open Verif Spec Tri FlatTri Vec Vertical Examples

variable {T : Type} [CommRing T] [LinearOrder T] [IsStrictOrderedRing T]
variable {K : Type*} [Field K] [LinearOrder K] [IsStrictOrderedRing K]

/-- Each face is of exactly one kind. -/
theorem kind_existsUnique {dbg : Bool} {S : FlatTri T} (h : S.tri.Reachable dbg) (hf : IsFlat S) {v : Vec T} (hv : v ≠ 0)
    {e : HE} (he : e ∈ S.tri.halfEdges) (hb : S.tri.boundary e = false) : ∃! t, FaceKind S v e t := by
  have hF := IsFlat.flat h hf
  have hb' := boundary_false.1 hb
  obtain ⟨t, -, ht⟩ := classify hF false hv hb' 0
  exact ⟨t, ht, fun t' ht' => faceKind_unique hF hv hb' ht' ht⟩

/-- `classifyFace` terminates and returns the kind of the face. -/
theorem classifyFace_correct {dbg : Bool} {S : FlatTri T} (h : S.tri.Reachable dbg) (hf : IsFlat S) {v : Vec T}
    (hv : v ≠ 0) {e : HE} (he : e ∈ S.tri.halfEdges) (hb : S.tri.boundary e = false) :
    ∃ N, ∀ fuel ≥ N, ∃ t, classifyFace S dbg v fuel e = some (.ok t) ∧ FaceKind S v e t := by
  refine ⟨3, fun fuel hfuel => ?_⟩
  obtain ⟨k, rfl⟩ := Nat.exists_eq_add_of_le' hfuel
  exact classify (IsFlat.flat h hf) dbg hv (boundary_false.1 hb) k

/-- `classifyFace` does not depend on the half edge of the face that is passed. -/
theorem classifyFace_side {dbg : Bool} {S : FlatTri T} (h : S.tri.Reachable dbg) (hf : IsFlat S) {v : Vec T}
    (hv : v ≠ 0) {e x : HE} (he : e ∈ S.tri.halfEdges) (hb : S.tri.boundary e = false) (hx : SideOf S e x) :
    ∃ N, ∀ fuel ≥ N, classifyFace S dbg v fuel x = classifyFace S dbg v fuel e := by
  have hF := IsFlat.flat h hf
  have hb' := boundary_false.1 hb
  have hx' : S.tri.faces.fwd x ≠ x ∧ ∀ t, FaceKind S v x t ↔ FaceKind S v e t := by
    rcases hx with rfl | rfl | rfl
    · exact ⟨hb', fun t => Iff.rfl⟩
    · exact ⟨hF.fwd_ne hb', fun t => faceKind_next hF⟩
    · exact ⟨hF.fwd_ne (hF.fwd_ne hb'), fun t => (faceKind_next hF).trans (faceKind_next hF)⟩
  refine ⟨3, fun fuel hfuel => ?_⟩
  obtain ⟨k, rfl⟩ := Nat.exists_eq_add_of_le' hfuel
  obtain ⟨t, t1, t2⟩ := classify hF dbg hv hb' k
  obtain ⟨t', t1', t2'⟩ := classify hF dbg hv hx'.1 k
  rw [t1, t1', faceKind_unique hF hv hb' ((hx'.2 t').1 t2') t2]

/-- `large` says whether a half edge is at least as long as the other sides of its two faces. -/
theorem large_correct {dbg : Bool} {S : FlatTri T} (h : S.tri.Reachable dbg) (hf : IsFlat S) {v : Vec T} {V : Vertical T}
    (hV : Vertical.make v = .ok V) {e : HE} (he : e ∈ S.tri.halfEdges) : (largeAt S e V).1 = true ↔ IsLarge S v e :=
  (large_answers (A := (none : Option (Approx T ℝ))) (IsFlat.flat h hf) (mem_halfEdges.1 he) V (sound_make hV)).1

/-- The vertical must not be zero. -/
theorem make_correct (v : Vec T) : (v = 0 → Vertical.make v = .error .invalidArgument) ∧
    (v ≠ 0 → ∃ V, Vertical.make v = .ok V ∧ V.vertical = v) := by
  unfold Vertical.make
  constructor
  · rintro rfl
    simp [Vec.nonzero]
  · intro hv
    have : v.nonzero = true := by
      unfold Vec.nonzero
      by_contra hc
      simp only [Bool.or_eq_true, decide_eq_true_eq, not_or, not_not] at hc
      exact hv (Vec.ext hc.1 hc.2)
    rw [this]
    exact ⟨_, rfl, rfl⟩

/-! ### Concrete cases -/

example : flatTorus.tri.Reachable true ∧ IsFlat flatTorus ∧ 2 ∈ flatTorus.tri.halfEdges ∧ flatTorus.tri.boundary 2 = false :=
  ⟨torus_reachable true, flatTorus_isFlat, by decide, by decide⟩

/-- The two triangles of the torus for the flow up and for a flow which is not vertical. -/
example : classifyFace flatTorus true ⟨0, 1⟩ 3 0 = some (.ok .rightVertical) ∧
    classifyFace flatTorus true ⟨0, 1⟩ 3 1 = some (.ok .leftVertical) ∧
    classifyFace flatTorus true ⟨1, 3⟩ 3 0 = some (.ok .backward) ∧
    classifyFace flatTorus true ⟨1, 3⟩ 3 1 = some (.ok .forward) := by
  refine ⟨by decide +kernel, by decide +kernel, by decide +kernel, by decide +kernel⟩

end Verif.C44
