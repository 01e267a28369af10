import Verif.Lemmas.FlipPoint
import Verif.Props.C19
import Verif.Props.C30

/-!
# C33: a flip deformation maps points to the same position
-/

namespace Verif.C33

open Verif Spec Tri FlatTri Examples

variable {T : Type} [CommRing T] [LinearOrder T] [IsStrictOrderedRing T]
variable {K : Type} [Field K] [LinearOrder K] [IsStrictOrderedRing K]

/-- The image of a point under a flip exists and is the point after the flip at the same position. -/
theorem flip_correct (A : Option (Approx T K)) {dbg : Bool} {S S' : FlatTri T} (h : Closed dbg S) {e : HE}
    (hf : S.flip A dbg e = (S', .ok ())) {d p : Point T} (hp : C30.Created dbg S d p) :
    ∃ d' p', S.flipPoint dbg S' e p = .ok p' ∧ C30.Created dbg S' d' p' ∧ SameAfterFlip S S' e d d' := by
  obtain ⟨x, y, z, w, hd⟩ := h.diagonals hf (h.flip hf).1
  obtain ⟨n1, s1⟩ := hp.normal h
  obtain ⟨p', d', h1, h2, h3, r, r', h4, h5, h6⟩ := hd.flipPoint dbg n1
  exact ⟨d', p', h1, ⟨h2, h3⟩, r, r', s1.trans h4, h5,
    h6.trans (C30.Created.normal (h.flip hf).1 (d := d') ⟨h2, h3⟩).2.symm⟩

/-- Positions before the flip correspond to positions after the flip, one to one. -/
theorem positions_correspond (A : Option (Approx T K)) {dbg : Bool} {S S' : FlatTri T} (h : Closed dbg S) {e : HE}
    (hf : S.flip A dbg e = (S', .ok ())) :
    (∀ d, Describes S d → ∃ d', Describes S' d' ∧ SameAfterFlip S S' e d d') ∧
    (∀ d', Describes S' d' → ∃ d, Describes S d ∧ SameAfterFlip S S' e d d') ∧
    ∀ d d' q q', Describes S d → SameAfterFlip S S' e d d' → SameAfterFlip S S' e q q' →
      (SamePosition S d q ↔ SamePosition S' d' q') := by
  obtain ⟨x, y, z, w, hd⟩ := h.diagonals hf (h.flip hf).1
  refine ⟨fun d h1 => ?_, fun d' h1 => ?_, fun d d' q q' h1 h2 h3 => hd.same_iff h1 h2 h3⟩
  · obtain ⟨d', h2⟩ := hd.exists_unmoved h1
    exact ⟨d', (hd.unmoved_describes h2).2 h1, d, d', .refl _, h2, .refl _⟩
  · obtain ⟨d, h2⟩ := hd.section_.exists_unmoved h1
    have h3 := hd.section_.unmoved_symm h2
    exact ⟨d, (hd.unmoved_describes h3).1 h1, d, d', .refl _, h3, .refl _⟩

/-- The places in the plane that `SameAfterFlip` compares exist: the quadrilateral can be laid out in the plane such that
its sides are at the same place before and after the flip. -/
theorem layouts_exist (A : Option (Approx T K)) {dbg : Bool} {S S' : FlatTri T} (h : Closed dbg S) {e : HE}
    (hf : S.flip A dbg e = (S', .ok ())) :
    ∃ C C', Layout S e C ∧ Layout S' e C' ∧ ∀ x, InQuad S e x → x ≠ e → x ≠ neg e → C' x = C x := by
  obtain ⟨x, y, z, w, hd⟩ := h.diagonals hf (h.flip hf).1
  exact hd.exists_fits

/-- Points on sides that are not flipped keep their coordinates. -/
theorem side_fixed (A : Option (Approx T K)) {dbg : Bool} {S S' : FlatTri T} (h : Closed dbg S) {e : HE}
    (hf : S.flip A dbg e = (S', .ok ())) {x : HE} (h1 : x ≠ e) (h2 : x ≠ neg e) {a b : T}
    (hx : Describes S ⟨x, a, b, 0⟩) : SameAfterFlip S S' e ⟨x, a, b, 0⟩ ⟨x, a, b, 0⟩ := by
  obtain ⟨y, z, w, v, hd⟩ := h.diagonals hf (h.flip hf).1
  exact ⟨_, _, .refl _, hd.unmoved_side h1 h2 hx, .refl _⟩

/-- The section, i.e., the relation in the opposite direction, undoes the flip: the point returned equals the original
point. -/
theorem section_correct (A : Option (Approx T K)) {dbg : Bool} {S S' : FlatTri T} (h : Closed dbg S) {e : HE}
    (hf : S.flip A dbg e = (S', .ok ())) {d p : Point T} (hp : C30.Created dbg S d p) :
    ∃ p' p'', S.flipPoint dbg S' e p = .ok p' ∧ S'.flipPoint dbg S e p' = .ok p'' ∧ S.pointEq p p'' = .ok true := by
  obtain ⟨x, y, z, w, hd⟩ := h.diagonals hf (h.flip hf).1
  obtain ⟨n1, s1⟩ := hp.normal h
  obtain ⟨p', d', h1, h2, h3, k⟩ := hd.flipPoint dbg n1
  have n2 := (C30.Created.normal (h.flip hf).1 (d := d') ⟨h2, h3⟩).1
  obtain ⟨p'', d'', g1, g2, g3, k'⟩ := hd.section_.flipPoint dbg n2
  have n3 := (C30.Created.normal h (d := d'') ⟨g2, g3⟩)
  refine ⟨p', p'', h1, g1, ?_⟩
  have k1 : SameAfterFlip S S' e p'' p' := by
    obtain ⟨r, r', i1, i2, i3⟩ := k'
    exact ⟨r', r, i3.symm, hd.section_.unmoved_symm i2, i1.symm⟩
  have := (hd.same_iff n1.toDescribes k k1).2 (.refl _)
  obtain ⟨r, r1, r2⟩ := h.shut.pointEq n1 n3.1
  rw [r1, r2.2 this]

/-! ### A concrete case -/

/-- The square torus with the diagonal 4 flipped. -/
def flippedTorus : FlatTri ℤ := (flatTorus.flip (none : Option (Approx ℤ ℚ)) true 4).1

theorem flippedTorus_flip : flatTorus.flip (none : Option (Approx ℤ ℚ)) true 4 = (flippedTorus, .ok ()) := rfl

/-- The center of the torus is in the center of the old and of the new diagonal. -/
example : C30.Created true flatTorus ⟨4, 1, 1, 0⟩ ⟨4, 1, 1, 0⟩ ∧
    (flatTorus.flipPoint true flippedTorus 4 ⟨4, 1, 1, 0⟩).toOption.map (fun p => (p.face, p.a, p.b, p.c)) =
      some (4, 1, 1, 0) := by
  refine ⟨⟨⟨by decide, by decide, by decide⟩, ?_⟩, ?_⟩
  · rfl
  · rfl

/-- A point in the interior of a triangle. -/
example : C30.Created true flatTorus ⟨4, 1, 2, 3⟩ ⟨4, 1, 2, 3⟩ ∧
    (flatTorus.flipPoint true flippedTorus 4 ⟨4, 1, 2, 3⟩).toOption.map (fun p => (p.face, p.a, p.b, p.c)) =
      some (5, 4, 1, 1) :=
  ⟨⟨⟨by decide, by decide, by decide⟩, rfl⟩, by decide +kernel⟩

end Verif.C33
