import Verif.Lemmas.LinearDeformation
import Verif.Props.C31

/-!
# C34: linear deformations map points
-/

namespace Verif.C34

open Verif Spec Tri FlatTri Examples Vec

variable {T : Type} [CommRing T] [LinearOrder T] [IsStrictOrderedRing T]
variable {K : Type*} [Field K] [LinearOrder K] [IsStrictOrderedRing K]
variable {dbg : Bool} {S S' : FlatTri T} {a b c d : T}

/-- The position specified as the image is where the matrix sends the position in the plane. For a matrix that reverses the
orientation, the image is relative to the image of the target of the half edge and not relative to its source. -/
theorem image_in_plane (f : T →+* ℝ) (hf : StrictMono f) (A : Option (Approx T K)) (h : Closed dbg S)
    (hm : S.applyMatrix A dbg a b c d = .ok S') {δ : Point T} (hδ : Describes S δ) :
    planePosition f S' (imagePosition (a * d - b * c) δ) + (if 0 < a * d - b * c then 0 else S'.vec δ.face).map f =
      (planePosition f S δ).applyMatrix (f a) (f b) (f c) (f d) := by
  have hl := LinearImage.of_ok A h hm
  have hne : f (δ.a + δ.b + δ.c) ≠ 0 := fun h0 => hδ.pos.ne' ((map_eq_zero_iff f hf.injective).1 h0)
  unfold imagePosition planePosition
  rcases lt_or_gt_of_ne hl.det with hn | hp
  · rw [if_neg (not_lt.2 hn.le), if_neg (not_lt.2 hn.le)]
    have hcl := h.shut.flat.closed δ.face (h.shut.nb _ hδ.lt)
    have hodd := h.shut.flat.odd δ.face hδ.lt
    have hnx : S'.tri.nextInFace (neg δ.face) = neg (S.tri.faces.fwd (S.tri.faces.fwd δ.face)) := by
      rw [(hl.neg hn).nextInFace, neg_neg']
      unfold Tri.previousInFace
      rw [h.shut.prev]
    have hodd' := h.shut.flat.odd _ (h.shut.next_lt (h.shut.next_lt hδ.lt))
    rw [hnx, hl.vec, hl.vec, hl.vec, hodd, hodd']
    have hx := congrArg Vec.x hcl
    have hy := congrArg Vec.y hcl
    simp at hx hy
    have hx' : (S.vec (S.tri.faces.fwd (S.tri.faces.fwd δ.face))).x = -(S.vec δ.face).x - (S.vec (S.tri.faces.fwd δ.face)).x := by
      linear_combination hx
    have hy' : (S.vec (S.tri.faces.fwd (S.tri.faces.fwd δ.face))).y = -(S.vec δ.face).y - (S.vec (S.tri.faces.fwd δ.face)).y := by
      linear_combination hy
    have e1 : f δ.b + f δ.a + f δ.c = f (δ.a + δ.b + δ.c) := by simp only [map_add]; ring
    have e2 : f (δ.a + δ.b + δ.c) = f δ.a + f δ.b + f δ.c := by simp only [map_add]
    rw [e2] at hne
    ext
    · simp [Vec.map, Vec.applyMatrix, Tri.nextInFace, hx', hy']
      rw [show f δ.b + f δ.a + f δ.c = f δ.a + f δ.b + f δ.c by ring]
      field_simp
      ring
    · simp [Vec.map, Vec.applyMatrix, Tri.nextInFace, hx', hy']
      rw [show f δ.b + f δ.a + f δ.c = f δ.a + f δ.b + f δ.c by ring]
      field_simp
      ring
  · rw [if_pos hp, if_pos hp, (hl.pos hp).nextInFace, hl.vec, hl.vec]
    ext <;> simp [Vec.map, Vec.applyMatrix] <;> ring

/-- The image of a position does not depend on how it is described. -/
theorem image_same (A : Option (Approx T K)) (h : Closed dbg S) (hm : S.applyMatrix A dbg a b c d = .ok S') {δ δ' : Point T}
    (hs : SamePosition S δ δ') :
    SamePosition S' (imagePosition (a * d - b * c) δ) (imagePosition (a * d - b * c) δ') :=
  (LinearImage.of_ok A h hm).same hs

/-- A point is mapped to the point at the image of its position if the matrix preserves the orientation or the point is on
an edge. -/
theorem point_correct (A : Option (Approx T K)) (h : Closed dbg S) (hm : S.applyMatrix A dbg a b c d = .ok S')
    {δ p : Point T} (hp : C30.Created dbg S δ p)
    (ho : 0 < a * d - b * c ∨ ∃ e x y, SamePosition S δ ⟨e, x, y, 0⟩) :
    ∃ δ' p', linearPoint dbg S S' p = .ok p' ∧ C30.Created dbg S' δ' p' ∧
      SamePosition S' (imagePosition (a * d - b * c) δ) δ' := by
  have hl := LinearImage.of_ok A h hm
  obtain ⟨hn, hs⟩ := hp.normal h
  obtain ⟨p', h1, h2⟩ := hl.point hn.toDescribes
  refine ⟨p, p', h1, h2, (hl.same hs).trans ?_⟩
  unfold imagePosition
  split_ifs with hd
  · exact .refl _
  · obtain ⟨e, x, y, hxy⟩ := ho.resolve_left hd
    have hc := Normal.weights h hp hxy
    obtain ⟨g, x, y, z⟩ := p
    cases hc
    exact SamePosition.glue.symm

/-- The determinant stored by the section is the inverse of the determinant. -/
theorem section_det {div : T → T → Option T} (hdiv : TrueDivision div) (hd : a * d - b * c ≠ 0) {a' b' c' d' : T}
    (hs : linearSection div a b c d = .ok (a', b', c', d')) :
    (0 < a' * d' - b' * c' ↔ 0 < a * d - b * c) ∧ a' * d' - b' * c' ≠ 0 ∧ (a' * d' - b' * c') * (a * d - b * c) = 1 := by
  unfold linearSection at hs
  dsimp only at hs
  generalize hD : a * d - b * c = D at *
  rcases h1 : div a D with - | x
  · rw [h1] at hs; cases hs
  rcases h2 : div b D with - | y
  · rw [h1, h2] at hs; cases hs
  rcases h3 : div c D with - | z
  · rw [h1, h2, h3] at hs; cases hs
  rcases h4 : div d D with - | w
  · rw [h1, h2, h3, h4] at hs; cases hs
  rw [h1, h2, h3, h4] at hs
  cases hs
  rw [hdiv _ _ hd] at h1 h2 h3 h4
  have h5 : (a' * d' - b' * c') * D * D = D := by
    rw [← h1, ← h2, ← h3, ← h4] at hD
    linear_combination hD
  have h6 : (a' * d' - b' * c') * D = 1 := mul_right_cancel₀ hd (h5.trans (one_mul D).symm)
  refine ⟨pos_iff_pos_of_mul_pos (h6 ▸ one_pos), fun hx => ?_, h6⟩
  rw [hx, zero_mul] at h6
  exact zero_ne_one h6

/-- The section exists if the determinant divides the entries. -/
theorem section_exists {div : T → T → Option T} (hdiv : TrueDivision div) (hd : a * d - b * c ≠ 0) :
    (∃ a' b' c' d', linearSection div a b c d = .ok (a', b', c', d') ∧ (0 < a' * d' - b' * c' ↔ 0 < a * d - b * c) ∧
      a' * d' - b' * c' ≠ 0) ∨
    linearSection div a b c d = .error .logicError ∧
      ¬ ((a * d - b * c) ∣ a ∧ (a * d - b * c) ∣ b ∧ (a * d - b * c) ∣ c ∧ (a * d - b * c) ∣ d) := by
  unfold linearSection
  dsimp only
  generalize hD : a * d - b * c = D at *
  have hs : ∀ {x}, D ∣ x → ∃ q, div x D = some q := fun ⟨q, hq⟩ => ⟨q, (hdiv _ _ hd q).2 (by rw [hq]; ring)⟩
  rcases h1 : div a D with - | a'
  · right
    refine ⟨rfl, fun hx => ?_⟩
    obtain ⟨q, hq⟩ := hs hx.1
    rw [h1] at hq; cases hq
  rcases h2 : div b D with - | b'
  · right
    refine ⟨rfl, fun hx => ?_⟩
    obtain ⟨q, hq⟩ := hs hx.2.1
    rw [h2] at hq; cases hq
  rcases h3 : div c D with - | c'
  · right
    refine ⟨rfl, fun hx => ?_⟩
    obtain ⟨q, hq⟩ := hs hx.2.2.1
    rw [h3] at hq; cases hq
  rcases h4 : div d D with - | d'
  · right
    refine ⟨rfl, fun hx => ?_⟩
    obtain ⟨q, hq⟩ := hs hx.2.2.2
    rw [h4] at hq; cases hq
  left
  refine ⟨a', b', c', d', rfl, ?_⟩
  subst hD
  have := section_det hdiv hd (a' := a') (b' := b') (c' := c') (d' := d') (by unfold linearSection; simp only [h1, h2, h3, h4])
  exact ⟨this.1, this.2.1⟩

/-- The section maps the image of a point back to the point. -/
theorem section_inverts (A : Option (Approx T K)) (h : Closed dbg S) (hm : S.applyMatrix A dbg a b c d = .ok S')
    {δ p p' : Point T} (hp : C30.Created dbg S δ p) (hp' : linearPoint dbg S S' p = .ok p')
    (ho : 0 < a * d - b * c ∨ ∃ e x y, SamePosition S δ ⟨e, x, y, 0⟩) :
    ∃ q, linearPoint dbg S' S p' = .ok q ∧ S.pointEq p q = .ok true := by
  have hl := LinearImage.of_ok A h hm
  obtain ⟨hn, hs⟩ := hp.normal h
  obtain ⟨q', h1, h2⟩ := hl.point hn.toDescribes
  rw [hp'] at h1; cases h1
  obtain ⟨hn', hs'⟩ := h2.normal hl.closed'
  have hd' : Describes S p' := ⟨hl.size ▸ hn'.lt, hn'.nonneg, hn'.pos⟩
  obtain ⟨q, h3, -⟩ := C30.point_accepts h hd'
  have hco : S'.coordinates p' p'.face = .ok (p'.a, p'.b, p'.c) := by
    unfold FlatTri.coordinates pointIsIn sides rotated
    simp
  refine ⟨q, ?_, ?_⟩
  · unfold linearPoint
    rw [hco]
    exact h3.2
  · obtain ⟨r, h4, h5⟩ := C30.eq_correct h hp h3
    rw [h4, h5.2]
    refine hs.trans ?_
    have h6 := hl.same_back hs'
    unfold imagePosition at h6
    split_ifs at h6 with hd
    · exact h6
    · obtain ⟨e, x, y, hxy⟩ := ho.resolve_left hd
      have hc := Normal.weights h hp hxy
      have hc' : p'.c = 0 := by
        refine Normal.weights hl.closed' h2 (e := p.face) (x := p.a) (y := p.b) ?_
        rw [← hc]
        exact .refl _
      rw [hc, hc'] at h6
      clear hco
      obtain ⟨g, x, y, z⟩ := p
      obtain ⟨g', x', y', z'⟩ := p'
      cases hc; cases hc'
      exact SamePosition.glue.trans (h6.trans SamePosition.glue.symm)

/-- A shear of the torus, and a reflection of the torus with a point on the diagonal. -/
example : (∃ S' p, flatTorus.applyMatrix (none : Option (Approx ℤ ℚ)) true 1 2 0 1 = .ok S' ∧
      C30.Created true flatTorus ⟨5, 1, 2, 3⟩ p ∧ (0 : ℤ) < 1 * 1 - 2 * 0) ∧
    ∃ S' p, flatTorus.applyMatrix (none : Option (Approx ℤ ℚ)) true 0 1 1 0 = .ok S' ∧
      C30.Created true flatTorus ⟨5, 2, 0, 1⟩ p ∧ ∃ e x y, SamePosition flatTorus ⟨5, 2, 0, 1⟩ ⟨e, x, y, 0⟩ := by
  constructor
  · obtain ⟨S', h, -⟩ := C22.applyMatrix_correct (none : Option (Approx ℤ ℚ)) (torus_reachable true) flatTorus_isFlat
      (by decide +kernel) (a := 1) (b := 2) (c := 0) (d := 1) (by decide)
    exact ⟨S', _, h, ⟨⟨by decide, by decide, by decide⟩, rfl⟩, by decide⟩
  · obtain ⟨S', h, -⟩ := C22.applyMatrix_correct (none : Option (Approx ℤ ℚ)) (torus_reachable true) flatTorus_isFlat
      (by decide +kernel) (a := 0) (b := 1) (c := 1) (d := 0) (by decide)
    exact ⟨S', _, h, ⟨⟨by decide, by decide, by decide⟩, rfl⟩, _, _, _, .trans .rotate .rotate⟩

/-- Rational division is a division. -/
example : TrueDivision (fun x y : ℚ => if y = 0 then none else some (x / y)) ∧
    linearSection (fun x y : ℚ => if y = 0 then none else some (x / y)) 1 2 0 2 = .ok (1 / 2, 1, 0, 1) := by
  constructor
  · intro x y hy q
    simp only [if_neg hy, Option.some.injEq]
    rw [div_eq_iff hy]
    exact ⟨fun h => h.symm, fun h => h.symm⟩
  · norm_num [linearSection]

end Verif.C34
