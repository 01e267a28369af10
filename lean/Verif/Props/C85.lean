import Verif.Lemmas.LinearPath
import Verif.Props.C34

/-!
# C85: linear deformations map paths
-/

namespace Verif.C85

open Verif Spec Tri FlatTri Examples Vec

variable {T : Type} [CommRing T] [LinearOrder T] [IsStrictOrderedRing T]
variable {K : Type*} [Field K] [LinearOrder K] [IsStrictOrderedRing K]
variable {dbg : Bool} {S S' : FlatTri T} {a b c d : T}

/-- The image of a path consists of the images of its segments, for all matrices. -/
theorem path_correct (A : Option (Approx T K)) (h : Closed dbg S) (hm : S.applyMatrix A dbg a b c d = .ok S')
    {path : List Saddle} (hs : ∀ s ∈ path, IsSegment S s) (hc : Spec.Connected S path) :
    ∃ path', (∀ fuel ≥ 3, linearPath A dbg fuel S S' a b c d path = some (.ok path')) ∧
      List.Forall₂ (IsImage S S' a b c d) path path' ∧ (∀ s ∈ path', IsSegment S' s) ∧ Spec.Connected S' path' := by
  have hl := LinearImage.of_ok A h hm
  have key := path_image A dbg (S := S) (S' := S') (a := a) (b := b) (c := c) (d := d)
    (R := fun s s' => IsImage S S' a b c d s s' ∧ IsSegment S s ∧ IsSegment S' s' ∧ S.tri.vertices.Orb s.source s'.source ∧
      S.tri.vertices.Orb s.target s'.target) ?hR path ?hS [] (connected_chain.1 hc) (by simp) (by simp)
  · obtain ⟨path', h1, h2, h3⟩ := key
    refine ⟨path', h1, h2.imp fun _ _ hx => hx.1, fun s' hs' => ?_, connected_chain.2 h3⟩
    obtain ⟨i, hi, rfl⟩ := List.getElem_of_mem hs'
    exact (h2.get (i := i) (by rw [h2.length_eq]; exact hi) hi).2.2.1
  case hR =>
    rintro s s' t t' ⟨-, s1, s2, s3, s4⟩ ⟨-, t1, t2, t3, t4⟩ hst
    rw [h.shut.connected_iff s1.2.1 t1.1.1] at hst
    rw [hl.closed'.shut.connected_iff s2.2.1 t2.1.1, hl.orb_iff]
    exact ((s4.symm h.shut.flat.coh.hv).trans hst).trans t3
  case hS =>
    intro s hsp
    have hv : S'.saddleVector s = (S.saddleVector s).applyMatrix a b c d := hl.chain s.chain
    obtain ⟨s', g1, g2, g3, g4, g5, g6, g7⟩ := segment_image A dbg h.shut hl.closed'.shut hl.det hl.size hl.fwd_pos hl.fwd_neg
      one_pos (s := s) (fun x => by
        rw [one_mul, hl.vec, hv]
        unfold cross Vec.applyMatrix
        ring) (hs s hsp)
    exact ⟨s', g1, ⟨g3.trans hv, g4, g5⟩, hs s hsp, g2, g6, g7⟩

theorem corner_back (hl : LinearImage dbg S S' a b c d) {D : T} (hD : 0 < D ↔ 0 < a * d - b * c) (hD0 : D ≠ 0) {e e' e'' : HE}
    {v v' : Vec T} (hv : ∀ x, cross (S'.vec x) v' = (a * d - b * c) * cross (S.vec x) v) (he : LeavesCorner S e v)
    (h1 : ImageCorner S (a * d - b * c) e v e') (h2 : ImageCorner S' D e' v' e'') : e'' = e := by
  rcases lt_or_gt_of_ne hl.det with hn | hp
  · have hn' : D < 0 := lt_of_le_of_ne (not_lt.1 fun hx => absurd (hD.1 hx) (not_lt.2 hn.le)) hD0
    by_cases h0 : cross (S.vec e) v = 0
    · have h3 := h1.1 (.inr h0)
      subst h3
      exact h2.1 (.inr (by rw [hv, h0, mul_zero]))
    · have h3 := h1.2 ⟨hn, h0⟩
      subst h3
      rw [h2.2 ⟨hn', by rw [hv]; exact mul_ne_zero hl.det he.2.2.ne⟩]
      exact (hl.fwd_neg hn _).trans (hl.closed.shut.flat.coh.hv.left e)
  · rw [h2.1 (.inl (hD.2 hp)), h1.1 (.inl hp)]

theorem matrix_injective (hd : a * d - b * c ≠ 0) {v w : Vec T} (h : v.applyMatrix a b c d = w.applyMatrix a b c d) :
    v = w := by
  have h1 := congrArg Vec.x h
  have h2 := congrArg Vec.y h
  simp only [Vec.applyMatrix] at h1 h2
  ext
  · refine mul_left_cancel₀ hd ?_
    linear_combination d * h1 - b * h2
  · refine mul_left_cancel₀ hd ?_
    linear_combination a * h2 - c * h1

/-- The section maps the image back to the path. -/
theorem section_inverts (A : Option (Approx T K)) (h : Closed dbg S) (hm : S.applyMatrix A dbg a b c d = .ok S')
    {div : T → T → Option T} (hdiv : TrueDivision div) {a' b' c' d' : T}
    (hsec : linearSection div a b c d = .ok (a', b', c', d')) {path path' : List Saddle} (hs : ∀ s ∈ path, IsSegment S s)
    (hc : Spec.Connected S path) (hp : linearPath A dbg 3 S S' a b c d path = some (.ok path')) :
    ∃ path'', (∀ fuel ≥ 3, linearPath A dbg fuel S' S a' b' c' d' path' = some (.ok path'')) ∧
      S.pathEq path path'' = true := by
  have hl := LinearImage.of_ok A h hm
  obtain ⟨q, h1, h2, h3, h4⟩ := path_correct A h hm hs hc
  have hq := h1 3 (le_refl _)
  rw [hp] at hq
  cases hq
  obtain ⟨hD, hD0, hDD⟩ : (0 < a' * d' - b' * c' ↔ 0 < a * d - b * c) ∧ a' * d' - b' * c' ≠ 0 ∧
      (a' * d' - b' * c') * (a * d - b * c) = 1 := C34.section_det hdiv hl.det hsec
  have hcr : ∀ (s : Saddle) x, cross (S'.vec x) (S'.saddleVector s) = (a * d - b * c) * cross (S.vec x) (S.saddleVector s) := by
    intro s x
    have hv : S'.saddleVector s = (S.saddleVector s).applyMatrix a b c d := hl.chain s.chain
    rw [hl.vec, hv]
    unfold cross Vec.applyMatrix
    ring
  have hv := h.shut.flat.coh.hv
  have hv' := hl.closed'.shut.flat.coh.hv
  have key := path_image A dbg (S := S') (S' := S) (a := a') (b := b') (c := c') (d := d')
    (R := fun s s' => (S.saddleVector s' = S.saddleVector s ∧
        ImageCorner S' (a' * d' - b' * c') s.source (S'.saddleVector s) s'.source) ∧ IsSegment S' s ∧ IsSegment S s' ∧
      S'.tri.vertices.Orb s.source s'.source ∧ S'.tri.vertices.Orb s.target s'.target) ?hR path' ?hS []
      (connected_chain.1 h4) (by simp) (by simp)
  · obtain ⟨path'', g1, g2, -⟩ := key
    refine ⟨path'', g1, ?_⟩
    clear g1 h1 hp h4 hc
    induction h2 generalizing path'' with
    | nil =>
      cases g2
      rfl
    | @cons s s' path path' i1 i2 ih =>
      cases g2 with
      | @cons _ s'' _ path'' j1 j2 =>
        obtain ⟨⟨k1, k2⟩, -⟩ := j1
        unfold FlatTri.pathEq
        rw [Bool.and_eq_true]
        refine ⟨?_, ih (fun t ht => hs t (by simp [ht])) (fun t ht => h3 t (by simp [ht])) path'' j2⟩
        unfold FlatTri.saddleEq
        have hvec : S.saddleVector s' = S.saddleVector s :=
          matrix_injective hl.det (((hl.chain s'.chain).symm.trans i1.vector))
        rw [Bool.and_eq_true, decide_eq_true_eq, decide_eq_true_eq]
        refine ⟨(k1.trans hvec).symm, ?_⟩
        refine (corner_back hl hD hD0 (fun x => ?_) (hs s (by simp)).1 i1.source k2).symm
        rw [hcr, hvec]
  case hR =>
    rintro s s' t t' ⟨-, s1, s2, s3, s4⟩ ⟨-, t1, t2, t3, t4⟩ hst
    rw [hl.closed'.shut.connected_iff s1.2.1 t1.1.1] at hst
    rw [h.shut.connected_iff s2.2.1 t2.1.1, ← hl.orb_iff]
    exact ((s4.symm hv').trans hst).trans t3
  case hS =>
    intro s hsp
    have hback : a' * d' - b' * c' < 0 → ∀ x, S.tri.vertices.fwd x = S'.tri.vertices.inv x := by
      intro hx x
      have hn : a * d - b * c < 0 := lt_of_le_of_ne (not_lt.1 fun hy => absurd (hD.2 hy) (not_lt.2 hx.le)) hl.det
      rw [← hv'.left (S.tri.vertices.fwd x), hl.fwd_neg hn, hv.left]
    obtain ⟨s', f1, f2, f3, f4, f5, f6, f7⟩ := segment_image A dbg hl.closed'.shut h.shut hD0 hl.size.symm
      (fun hx x => (hl.fwd_pos (hD.1 hx) x).symm) hback one_pos (s := s) (fun x => by
        rw [one_mul, hcr, ← mul_assoc, hDD, one_mul]) (h3 s hsp)
    exact ⟨s', f1, ⟨f3, f4⟩, h3 s hsp, f2, f6, f7⟩

/-- The segment from the vertex of the torus to its copy at `(2, 1)`. -/
theorem torus_segment : IsSegment flatTorus ⟨0, 1, fun i => if i = 0 ∨ i = 2 then 1 else 0⟩ ∧
    flatTorus.saddleVector ⟨0, 1, fun i => if i = 0 ∨ i = 2 then 1 else 0⟩ = ⟨2, 1⟩ := by
  unfold IsSegment LeavesCorner
  decide

/-- The reflection of the torus at the diagonal and a path. -/
example : ∃ S', flatTorus.applyMatrix (none : Option (Approx ℤ ℚ)) true 0 1 1 0 = .ok S' ∧
    (∀ s ∈ [(⟨0, 1, fun i => if i = 0 ∨ i = 2 then 1 else 0⟩ : Saddle)], IsSegment flatTorus s) ∧
    Spec.Connected flatTorus [⟨0, 1, fun i => if i = 0 ∨ i = 2 then 1 else 0⟩] := by
  obtain ⟨S', h, -⟩ := C22.applyMatrix_correct (none : Option (Approx ℤ ℚ)) (torus_reachable true) flatTorus_isFlat
    (by decide +kernel) (a := 0) (b := 1) (c := 1) (d := 0) (by decide)
  refine ⟨S', h, ?_, ?_⟩
  · intro s hs
    rw [List.mem_singleton] at hs
    rw [hs]
    exact torus_segment.1
  · unfold Spec.Connected
    exact List.isChain_singleton _

end Verif.C85
