import Verif.Lemmas.FlatExamples
import Verif.Lemmas.FlatMaps

/-!
# C22: Linear maps and scaling act correctly on surfaces (and C68: relabelling)
-/

namespace Verif.C22

open Verif Spec Tri FlatTri Examples Vec

variable {T : Type} [CommRing T] [LinearOrder T] [IsStrictOrderedRing T]
variable {K : Type*} [Field K] [LinearOrder K] [IsStrictOrderedRing K]

/-- Half edges turn the other way around vertices and faces. -/
structure Mirrored (C C' : Tri) : Prop where
  halfEdges : C'.halfEdges = C.halfEdges
  nextAtVertex : ∀ e, C'.nextAtVertex e = C.previousAtVertex e
  nextInFace : ∀ e, C'.nextInFace e = neg (C.previousInFace (neg e))

/-! ### Matrices -/

/-- A singular matrix is rejected. -/
theorem applyMatrix_singular (A : Option (Approx T K)) (dbg : Bool) (S : FlatTri T) {a b c d : T}
    (hd : a * d - b * c = 0) : S.applyMatrix A dbg a b c d = .error .invalidArgument := by
  unfold FlatTri.applyMatrix
  rw [if_pos hd]
  rfl

/-- Surfaces with boundary are not supported. -/
theorem applyMatrix_boundary (A : Option (Approx T K)) (dbg : Bool) {S : FlatTri T} (hb : S.tri.hasBoundary = true)
    {a b c d : T} (hd : a * d - b * c ≠ 0) : S.applyMatrix A dbg a b c d = .error .logicError := by
  unfold FlatTri.applyMatrix
  rw [if_neg hd, hb]
  rfl

/-- On closed surfaces, the image under a matrix is a flat surface, mirrored if the determinant is negative, whose area has
been multiplied by the absolute value of the determinant. -/
theorem applyMatrix_correct (A : Option (Approx T K)) {dbg : Bool} {S : FlatTri T} (h : S.tri.Reachable dbg)
    (hf : IsFlat S) (hb : S.tri.hasBoundary = false) {a b c d : T} (hd : a * d - b * c ≠ 0) :
    ∃ S', S.applyMatrix A dbg a b c d = .ok S' ∧ S'.tri.Reachable dbg ∧ IsFlat S' ∧
      (∀ e, S'.vec e = ⟨a * (S.vec e).x + b * (S.vec e).y, c * (S.vec e).x + d * (S.vec e).y⟩) ∧
      S'.area2 = |a * d - b * c| * S.area2 ∧
      (0 < a * d - b * c → Same S.tri S'.tri) ∧ (a * d - b * c < 0 → Mirrored S.tri S'.tri) := by
  have hF := IsFlat.flat h hf
  unfold FlatTri.applyMatrix
  rw [if_neg hd, hb]
  rcases lt_or_gt_of_ne hd with hlt | hgt
  · obtain ⟨C, h1, h2, h3, h4, h5⟩ := hF.coh.mirror dbg
    have hfil : S.tri.halfEdges.filter S.tri.boundary = [] := by
      rw [List.filter_eq_nil_iff]
      intro e he
      rw [Bool.not_eq_true, boundary_false]
      exact hasBoundary_false.1 hb e (mem_halfEdges.1 he)
    have hC : (do let v ← S.tri.vertices.inverse; Tri.ofVertices dbg v) = Except.ok C := by
      unfold Tri.mirror at h1
      rw [hfil] at h1
      exact h1
    obtain ⟨g1, g2⟩ := matrix_neg hF h2 h3 h5 hlt hb
    obtain ⟨T', e1, e2, e3, e4, e5⟩ := ofFunction_flat A h2 g1
    refine ⟨⟨T', _⟩, ?_, e2, e4.isFlat, fun e => rfl, ?_, fun hx => absurd hlt (not_lt.2 hx.le), fun _ => ⟨?_, ?_, ?_⟩⟩
    · rw [if_pos hlt, hC]
      exact e1
    · rw [e5, g2, abs_of_neg hlt]
    · rw [e3.halfEdges]; unfold Tri.halfEdges; rw [h3]
    · intro e; rw [e3.nextAtVertex]; exact h4 e
    · intro e; rw [e3.nextInFace]; exact h5 e
  · obtain ⟨C, h1, h2, h3⟩ := hF.coh.clone dbg
    have hC : C.Reachable dbg := ofMake hF.coh.hv h1
    obtain ⟨g1, g2⟩ := matrix_pos hF hgt
    have g3 := flat_of_faces g1 hC h2 h3
    obtain ⟨T', e1, e2, e3, e4, e5⟩ := ofFunction_flat A hC g3
    have hs := same_of_eq h hC h2 h3
    refine ⟨⟨T', _⟩, ?_, e2, e4.isFlat, fun e => rfl, ?_, fun _ => ⟨?_, ?_, ?_, ?_, ?_, ?_, ?_⟩,
      fun hx => absurd hgt (not_lt.2 hx.le)⟩
    · rw [if_neg (not_lt.2 hgt.le), h1]
      exact e1
    · rw [e5, area_of_faces g1 g3 h2 h3, g2, abs_of_pos hgt]
    · rw [e3.halfEdges, hs.halfEdges]
    · intro e; rw [e3.nextAtVertex, hs.nextAtVertex]
    · intro e; rw [e3.previousAtVertex, hs.previousAtVertex]
    · intro e; rw [e3.nextInFace, hs.nextInFace]
    · intro e; rw [e3.previousInFace, hs.previousInFace]
    · intro e; rw [e3.boundary, hs.boundary]
    · exact e3.vertices.trans hs.vertices

theorem of_ok (A : Option (Approx T K)) {dbg : Bool} {S S' : FlatTri T} {a b c d : T}
    (h1 : S.applyMatrix A dbg a b c d = .ok S') : a * d - b * c ≠ 0 ∧ S.tri.hasBoundary = false := by
  have hd : a * d - b * c ≠ 0 := fun hc => by rw [applyMatrix_singular A dbg S hc] at h1; cases h1
  refine ⟨hd, ?_⟩
  by_contra hb
  rw [Bool.not_eq_false] at hb
  rw [applyMatrix_boundary A dbg hb hd] at h1
  cases h1

/-- Applying one matrix after another is the same as applying their product. -/
theorem applyMatrix_compose (A : Option (Approx T K)) {dbg : Bool} {S S₁ S₂ : FlatTri T} (h : S.tri.Reachable dbg)
    (hf : IsFlat S) {a b c d a' b' c' d' : T} (h1 : S.applyMatrix A dbg a b c d = .ok S₁)
    (h2 : S₁.applyMatrix A dbg a' b' c' d' = .ok S₂) :
    ∃ S₃, S.applyMatrix A dbg (a' * a + b' * c) (a' * b + b' * d) (c' * a + d' * c) (c' * b + d' * d) = .ok S₃ ∧
      Same S₂.tri S₃.tri ∧ S₃.vec = S₂.vec := by
  obtain ⟨hd, hb⟩ := of_ok A h1
  obtain ⟨hd', hb'⟩ := of_ok A h2
  have hdet : (a' * a + b' * c) * (c' * b + d' * d) - (a' * b + b' * d) * (c' * a + d' * c) =
      (a' * d' - b' * c') * (a * d - b * c) := by ring
  obtain ⟨S1, i1, r1, f1, v1, -, p1, n1⟩ := applyMatrix_correct A h hf hb hd
  rw [h1] at i1; cases i1
  obtain ⟨S2, i2, r2, f2, v2, -, p2, n2⟩ := applyMatrix_correct A r1 f1 hb' hd'
  rw [h2] at i2; cases i2
  obtain ⟨S3, i3, r3, f3, v3, -, p3, n3⟩ := applyMatrix_correct A h hf hb (hdet ▸ mul_ne_zero hd' hd)
  rw [hdet] at p3 n3
  refine ⟨S3, i3, ?_, ?_⟩
  · have size : ∀ {C C' : Tri}, C'.halfEdges = C.halfEdges → C'.size = C.size := by
      intro C C' hx
      have := congrArg List.length hx
      simpa [Tri.halfEdges] using this
    have key : S3.tri.size = S₂.tri.size ∧ (∀ x, S3.tri.vertices.fwd x = S₂.tri.vertices.fwd x) ∧
        ∀ x, S3.tri.faces.fwd x = S₂.tri.faces.fwd x := by
      rcases lt_or_gt_of_ne hd with hn | hp <;> rcases lt_or_gt_of_ne hd' with hn' | hp'
      · have m1 := n1 hn
        have m2 := n2 hn'
        have m3 := p3 (mul_pos_of_neg_of_neg hn' hn)
        refine ⟨by rw [size m3.halfEdges, size m2.halfEdges, size m1.halfEdges], fun x => ?_, fun x => ?_⟩
        · have e3 := m3.nextAtVertex x
          have e2 := m2.nextAtVertex x
          unfold Tri.nextAtVertex Tri.previousAtVertex at *
          rw [e3, e2, inv_of_fwd h.inv.1.hv r1.inv.1.hv m1.nextAtVertex]
        · have e3 := m3.nextInFace x
          have e2 := m2.nextInFace x
          unfold Tri.nextInFace Tri.previousInFace at *
          rw [e3, e2]
          have e1 := m1.nextInFace (neg (S.tri.faces.fwd x))
          unfold Tri.nextInFace Tri.previousInFace at e1
          rw [neg_neg', h.inv.1.hf.left] at e1
          rw [← e1, r1.inv.1.hf.left, neg_neg']
      · have m1 := n1 hn
        have m2 := p2 hp'
        have m3 := n3 (mul_neg_of_pos_of_neg hp' hn)
        refine ⟨by rw [size m3.halfEdges, size m2.halfEdges, size m1.halfEdges], fun x => ?_, fun x => ?_⟩
        · exact (m3.nextAtVertex x).trans ((m2.nextAtVertex x).trans (m1.nextAtVertex x)).symm
        · exact (m3.nextInFace x).trans ((m2.nextInFace x).trans (m1.nextInFace x)).symm
      · have m1 := p1 hp
        have m2 := n2 hn'
        have m3 := n3 (mul_neg_of_neg_of_pos hn' hp)
        refine ⟨by rw [size m3.halfEdges, size m2.halfEdges, size m1.halfEdges], fun x => ?_, fun x => ?_⟩
        · exact (m3.nextAtVertex x).trans ((m2.nextAtVertex x).trans (m1.previousAtVertex x)).symm
        · refine (m3.nextInFace x).trans ((m2.nextInFace x).trans ?_).symm
          rw [m1.previousInFace]
      · have m1 := p1 hp
        have m2 := p2 hp'
        have m3 := p3 (mul_pos hp' hp)
        refine ⟨by rw [size m3.halfEdges, size m2.halfEdges, size m1.halfEdges], fun x => ?_, fun x => ?_⟩
        · exact (m3.nextAtVertex x).trans ((m2.nextAtVertex x).trans (m1.nextAtVertex x)).symm
        · exact (m3.nextInFace x).trans ((m2.nextInFace x).trans (m1.nextInFace x)).symm
    obtain ⟨k1, k2⟩ := eq_of_fwd r2.inv.1 r3.inv.1 key.1 key.2.1 key.2.2
    exact same_of_eq r2 r3 k1 k2
  · funext e
    rw [v3, v2, v1]
    ext <;> simp <;> ring

/-- A shear and a reflection of the torus. -/
example : ∃ S₁ S₂, flatTorus.applyMatrix (none : Option (Approx ℤ ℚ)) true 1 2 0 1 = .ok S₁ ∧
    S₁.applyMatrix (none : Option (Approx ℤ ℚ)) true 0 1 3 0 = .ok S₂ := by
  obtain ⟨S1, h1, h2, h3, -, -, h4, -⟩ := applyMatrix_correct (none : Option (Approx ℤ ℚ)) (torus_reachable true)
    flatTorus_isFlat (by decide +kernel) (a := 1) (b := 2) (c := 0) (d := 1) (by decide)
  have hb : S1.tri.hasBoundary = false := by
    have hs := h4 (by decide)
    have hT : flatTorus.tri.hasBoundary = false := by decide +kernel
    unfold Tri.hasBoundary at *
    rw [hs.halfEdges, show S1.tri.boundary = flatTorus.tri.boundary from funext hs.boundary]
    exact hT
  obtain ⟨S2, h5, -⟩ := applyMatrix_correct (none : Option (Approx ℤ ℚ)) h2 h3 hb (a := 0) (b := 1) (c := 3) (d := 0)
    (by decide)
  exact ⟨S1, S2, h1, h5⟩

/-! ### Scaling -/

/-- Scaling by a non-zero integer multiplies the area by its square. -/
theorem scale_correct (A : Option (Approx T K)) {dbg : Bool} {S : FlatTri T} (h : S.tri.Reachable dbg)
    (hf : IsFlat S) {n : ℤ} (hn : n ≠ 0) :
    ∃ S', S.scale A dbg n = .ok S' ∧ S'.tri.Reachable dbg ∧ IsFlat S' ∧ Same S.tri S'.tri ∧
      (∀ e, S'.vec e = ⟨n * (S.vec e).x, n * (S.vec e).y⟩) ∧ S'.area2 = (n : T) ^ 2 * S.area2 := by
  have hF := IsFlat.flat h hf
  have hn' : (n : T) ≠ 0 := Int.cast_ne_zero.2 hn
  have hpos : (0 : T) < n * n - 0 * 0 := by
    rw [mul_zero, sub_zero]
    exact mul_self_pos.2 hn'
  have hsm : (fun e => (n : T) • S.vec e) = fun e => (S.vec e).applyMatrix (n : T) 0 0 n := by
    funext e
    ext <;> simp [Vec.applyMatrix]
  obtain ⟨C, h1, h2, h3⟩ := hF.coh.clone dbg
  have hC : C.Reachable dbg := ofMake hF.coh.hv h1
  obtain ⟨g1, g2⟩ := matrix_pos hF hpos
  rw [← hsm] at g1 g2
  have g3 := flat_of_faces g1 hC h2 h3
  obtain ⟨T', e1, e2, e3, e4, e5⟩ := ofFunction_flat A hC g3
  have hs := same_of_eq h hC h2 h3
  refine ⟨⟨T', _⟩, ?_, e2, e4.isFlat, ⟨?_, ?_, ?_, ?_, ?_, ?_, ?_⟩, fun e => by ext <;> simp, ?_⟩
  · unfold FlatTri.scale
    rw [h1]
    exact e1
  · rw [e3.halfEdges, hs.halfEdges]
  · intro e; rw [e3.nextAtVertex, hs.nextAtVertex]
  · intro e; rw [e3.previousAtVertex, hs.previousAtVertex]
  · intro e; rw [e3.nextInFace, hs.nextInFace]
  · intro e; rw [e3.previousInFace, hs.previousInFace]
  · intro e; rw [e3.boundary, hs.boundary]
  · exact e3.vertices.trans hs.vertices
  · rw [e5, area_of_faces g1 g3 h2 h3, g2]
    ring

/-- Scaling by zero is rejected if there is a face. -/
theorem scale_zero (A : Option (Approx T K)) {dbg : Bool} {S : FlatTri T} (h : S.tri.Reachable dbg)
    {e : HE} (he : S.tri.boundary e = false) : S.scale A dbg 0 = .error .invalidArgument := by
  obtain ⟨C, h1, h2, h3⟩ := h.inv.1.clone dbg
  have hC : C.Reachable dbg := ofMake h.inv.1.hv h1
  obtain ⟨T', g1, g2, g3, g4, -⟩ := construct hC.inv.1 A dbg
  unfold FlatTri.scale
  rw [h1]
  change ofFunction A dbg C _ = _
  rw [g4]
  rcases check_cases A ⟨T', fun e => ((0 : ℤ) : T) • S.vec e⟩ with hc | hc
  · rw [check_ok A (S := ⟨T', _⟩) g3.inv.1] at hc
    have := hc.2 e (by simp only [g2, h3]; exact boundary_false.1 he)
    simp at this
  · rw [hc]; rfl

/-- A square with boundary is scaled. -/
example : ∃ S', flatSquare.scale (none : Option (Approx ℤ ℚ)) true (-3) = .ok S' ∧ S'.area2 = 18 := by
  obtain ⟨S', h1, -, -, -, -, h2⟩ := scale_correct (none : Option (Approx ℤ ℚ)) (square_reachable true) flatSquare_isFlat
    (n := -3) (by decide)
  refine ⟨S', h1, ?_⟩
  rw [h2]
  decide +kernel

/-! ### C68: Relabelling -/

/-- A relabelling of a closed surface, i.e., a permutation of the half edges that respects opposite half edges, gives a flat
surface with the same area on which half edges have been renamed. -/
theorem relabel_correct (A : Option (Approx T K)) {dbg : Bool} {S : FlatTri T} (h : S.tri.Reachable dbg)
    (hf : IsFlat S) (hb : S.tri.hasBoundary = false) {r : Perm} (hr : r.Reachable) (hs : r.size = S.tri.size)
    (hn : ∀ e ∈ S.tri.halfEdges, r.fwd (neg e) = neg (r.fwd e)) :
    ∃ S', S.relabel A dbg r = .ok S' ∧ S'.tri.Reachable dbg ∧ IsFlat S' ∧ S'.tri.halfEdges = S.tri.halfEdges ∧
      (∀ e, S'.vec (r.fwd e) = S.vec e ∧ S'.tri.nextInFace (r.fwd e) = r.fwd (S.tri.nextInFace e) ∧
        S'.tri.nextAtVertex (r.fwd e) = r.fwd (S.tri.nextAtVertex e)) ∧ S'.area2 = S.area2 := by
  have hF := IsFlat.flat h hf
  have hw := hr.wf
  obtain ⟨C, h1, h2, h3, h4, h5, h6, -⟩ := hF.coh.relabel hb hw hs (fun e he => hn e (mem_halfEdges.2 he)) dbg
  have hbd := hasBoundary_false.1 hb
  have hlt : ∀ e, e < S.tri.size → r.inv e < S.tri.size := fun e he => by rw [← hs] at *; exact hw.inv_lt.2 he
  have hri : ∀ e < S.tri.size, r.inv (neg e) = neg (r.inv e) := by
    intro e he
    rw [← hw.left (neg (r.inv e)), hn _ (mem_halfEdges.2 (hlt e he)), hw.right]
  have hCb : ∀ e, C.faces.fwd e ≠ e → e < S.tri.size := by
    intro e he
    rw [← h3]
    exact h2.inv.1.lt_of_not_boundary he
  have hG : Flat ⟨C, fun e => S.vec (r.inv e)⟩ := by
    refine ⟨h2.inv.1, h2.inv.2, fun e he => ?_, fun e he => ?_, fun e he => ?_⟩
    · simp only [h3] at he ⊢
      rw [hri e he, hF.odd _ (hlt e he)]
    · have := hF.closed (r.inv e) (hbd _ (hlt e (hCb e he)))
      simp only [h6, hw.left]
      exact this
    · have := hF.oriented (r.inv e) (hbd _ (hlt e (hCb e he)))
      simp only [h6, hw.left]
      exact this
  obtain ⟨T', e1, e2, e3, e4, e5⟩ := ofFunction_flat A h2 hG
  refine ⟨⟨T', _⟩, ?_, e2, e4.isFlat, ?_, fun e => ⟨?_, ?_, ?_⟩, ?_⟩
  · unfold FlatTri.relabel
    rw [h1]
    exact e1
  · rw [e3.halfEdges]; unfold Tri.halfEdges; rw [h3]
  · simp only [hw.left]
  · rw [e3.nextInFace]; unfold Tri.nextInFace; rw [h6, hw.left]
  · rw [e3.nextAtVertex]; unfold Tri.nextAtVertex; rw [h5, hw.left]
  · rw [e5, area2_eq_of_sum hF hG 1, one_mul]
    rw [one_mul]
    change ∑ e ∈ Finset.range C.size, _ = _
    rw [h3, ← sum_fwd hw hs.le]
    refine Finset.sum_congr rfl fun e _ => ?_
    unfold faceArea
    simp only [h6, hw.left]
    by_cases hx : S.tri.faces.fwd e = e
    · rw [if_pos hx, if_pos (by rw [hx])]
    · rw [if_neg hx, if_neg (fun hc => hx (hw.inj hc))]

/-- Otherwise an exception is thrown. -/
theorem relabel_rejects (A : Option (Approx T K)) {dbg : Bool} {S : FlatTri T} (h : S.tri.Reachable dbg) {r : Perm}
    (hn : ¬ (S.tri.hasBoundary = false ∧ r.size = S.tri.size ∧ ∀ e ∈ S.tri.halfEdges, r.fwd (neg e) = neg (r.fwd e))) :
    S.relabel A dbg r = .error .invalidArgument ∨ S.relabel A dbg r = .error .logicError := by
  have hl := h.inv.1.edges_length
  unfold FlatTri.relabel Tri.relabel
  by_cases hb : S.tri.hasBoundary = true
  · rw [if_pos hb]; right; rfl
  rw [if_neg hb]
  by_cases h2 : 2 * S.tri.edges.length ≠ r.size
  · rw [if_pos h2]; left; rfl
  rw [if_neg h2]
  by_cases h3 : ∃ e ∈ S.tri.edges, r.fwd (neg e) ≠ neg (r.fwd e)
  · rw [if_pos h3]; left; rfl
  · refine absurd ⟨by simpa using hb, ?_, fun e he => ?_⟩ hn
    · push Not at h2; omega
    · exact (h.inv.1.edges_neg r).1 h3 e (mem_halfEdges.1 he)

/-- Renaming the edges of the torus. -/
example : ∃ S', flatTorus.relabel (none : Option (Approx ℤ ℚ)) true (perm [[0, 2, 4], [1, 3, 5]]) = .ok S' ∧
    S'.vec 2 = ⟨1, 0⟩ := by
  obtain ⟨S', h1, -, -, -, h2, -⟩ := relabel_correct (none : Option (Approx ℤ ℚ)) (torus_reachable true) flatTorus_isFlat
    (by decide +kernel) (r := perm [[0, 2, 4], [1, 3, 5]]) (.ofCycles (cs := [[0, 2, 4], [1, 3, 5]]) rfl)
    (by decide +kernel) (by decide +kernel)
  exact ⟨S', h1, (h2 0).1⟩

end Verif.C22
