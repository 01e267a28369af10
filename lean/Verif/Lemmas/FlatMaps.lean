import Verif.Lemmas.Flat
import Mathlib.Algebra.Order.Ring.Abs

set_option linter.unusedSectionVars false

/-!
# Images of flat triangulations
-/

namespace Verif.FlatTri

open Verif Spec Tri Vec

variable {T : Type} [CommRing T] [LinearOrder T] [IsStrictOrderedRing T]
variable {K : Type*} [Field K] [LinearOrder K] [IsStrictOrderedRing K]

theorem area2_eq_of_sum {S S' : FlatTri T} (h : S.Flat) (h' : S'.Flat) (c : T)
    (hs : ∑ e ∈ Finset.range S'.tri.size, S'.faceArea e = c * ∑ e ∈ Finset.range S.tri.size, S.faceArea e) :
    S'.area2 = c * S.area2 := by
  rw [← h.area2_sum, ← h'.area2_sum] at hs
  have h2 : 3 * (S'.area2 - c * S.area2) = 0 := by linear_combination hs
  rcases mul_eq_zero.1 h2 with h3 | h3
  · exact absurd h3 (by norm_num)
  · exact sub_eq_zero.1 h3

theorem applyMatrix_add (a b c d : T) (v w : Vec T) :
    (v + w).applyMatrix a b c d = v.applyMatrix a b c d + w.applyMatrix a b c d := by
  ext <;> simp [Vec.applyMatrix] <;> ring

theorem applyMatrix_neg (a b c d : T) (v : Vec T) : (-v).applyMatrix a b c d = -v.applyMatrix a b c d := by
  ext <;> simp [Vec.applyMatrix] <;> ring

theorem applyMatrix_zero (a b c d : T) : (0 : Vec T).applyMatrix a b c d = 0 := by
  ext <;> simp [Vec.applyMatrix]

theorem flat_of_faces {C C' : Tri} {f : HE → Vec T} (h : Flat ⟨C, f⟩) {dbg : Bool} (h' : C'.Reachable dbg)
    (hv : C'.vertices = C.vertices) (hf : C'.faces = C.faces) : Flat ⟨C', f⟩ :=
  ⟨h'.inv.1, h'.inv.2, fun e he => h.odd e (by simp only [Tri.size, hv] at *; exact he),
    fun e he => by simp only [hf] at *; exact h.closed e he, fun e he => by simp only [hf] at *; exact h.oriented e he⟩

theorem area_of_faces {C C' : Tri} {f : HE → Vec T} (h : Flat ⟨C, f⟩) (h' : Flat ⟨C', f⟩)
    (hv : C'.vertices = C.vertices) (hf : C'.faces = C.faces) :
    (⟨C', f⟩ : FlatTri T).area2 = (⟨C, f⟩ : FlatTri T).area2 := by
  rw [area2_eq_of_sum h h' 1, one_mul]
  simp only [faceArea, Tri.size, hv, hf, one_mul]

/-- Constructing a flat triangulation with known geometry. -/
theorem ofFunction_flat (A : Option (Approx T K)) {dbg : Bool} {C : Tri} (h : C.Reachable dbg) {f : HE → Vec T}
    (hf : Flat ⟨C, f⟩) : ∃ T' : Tri, ofFunction A dbg C f = .ok ⟨T', f⟩ ∧ T'.Reachable dbg ∧ Same C T' ∧ Flat ⟨T', f⟩ ∧
      (⟨T', f⟩ : FlatTri T).area2 = (⟨C, f⟩ : FlatTri T).area2 := by
  obtain ⟨T', h1, h2, h3, h4, -⟩ := construct h.inv.1 A dbg
  have hF := flat_of_faces hf h3 h1 h2
  refine ⟨T', ?_, h3, same_of_eq h h3 h1 h2, hF, area_of_faces hf hF h1 h2⟩
  rw [h4, (isFlat_of_check A h3 fun e he => hF.odd e (mem_halfEdges.1 he)).2 hF.isFlat]
  rfl

/-- The image of a surface with vectors multiplied by a matrix of positive determinant. -/
theorem matrix_pos {S : FlatTri T} (h : S.Flat) {a b c d : T} (hd : 0 < a * d - b * c) :
    Flat ⟨S.tri, fun e => (S.vec e).applyMatrix a b c d⟩ ∧
      (⟨S.tri, fun e => (S.vec e).applyMatrix a b c d⟩ : FlatTri T).area2 = (a * d - b * c) * S.area2 := by
  have hF : Flat ⟨S.tri, fun e => (S.vec e).applyMatrix a b c d⟩ := by
    refine ⟨h.coh, h.ver, fun e he => ?_, fun e he => ?_, fun e he => ?_⟩
    · simp only [h.odd e he, applyMatrix_neg]
    · simp only [← applyMatrix_add, h.closed e he, applyMatrix_zero]
    · simp only [cross_applyMatrix]
      exact mul_pos hd (h.oriented e he)
  refine ⟨hF, area2_eq_of_sum h hF _ ?_⟩
  rw [Finset.mul_sum]
  refine Finset.sum_congr rfl fun e _ => ?_
  unfold faceArea
  simp only [cross_applyMatrix]
  split_ifs <;> simp

theorem sum_neg {n : ℕ} (hn : n % 2 = 0) (g : HE → T) :
    ∑ e ∈ Finset.range n, g (neg e) = ∑ e ∈ Finset.range n, g e := by
  refine Finset.sum_nbij' neg neg ?_ ?_ ?_ ?_ ?_
  · intro x hx; rw [Finset.mem_range] at *; exact (neg_lt' hn x).2 hx
  · intro x hx; rw [Finset.mem_range] at *; exact (neg_lt' hn x).2 hx
  · intro x _; exact neg_neg' x
  · intro x _; exact neg_neg' x
  · intro x _; rfl

theorem inv_fixed {p : Perm} (hp : p.WF) {x : HE} : p.inv x = x ↔ p.fwd x = x := by
  constructor
  · intro hx; conv_lhs => rw [← hx, hp.right]
  · intro hx; conv_lhs => rw [← hx, hp.left]

/-- The image of a mirrored surface with vectors multiplied by a matrix of negative determinant. -/
theorem matrix_neg {S : FlatTri T} (h : S.Flat) {C : Tri} {dbg : Bool} (hC : C.Reachable dbg) (hs : C.size = S.tri.size)
    (hf : ∀ x, C.faces.fwd x = neg (S.tri.faces.inv (neg x))) {a b c d : T} (hd : a * d - b * c < 0)
    (hb : S.tri.hasBoundary = false) :
    Flat ⟨C, fun e => (S.vec e).applyMatrix a b c d⟩ ∧
      (⟨C, fun e => (S.vec e).applyMatrix a b c d⟩ : FlatTri T).area2 = -(a * d - b * c) * S.area2 := by
  have key : ∀ e, C.faces.fwd e ≠ e → cross (S.vec e) (S.vec (C.faces.fwd e)) = -S.faceArea (neg e) := by
    intro e he
    rw [hf] at he ⊢
    have hne : S.tri.faces.inv (neg e) ≠ neg e := fun hc => he (by rw [hc, neg_neg'])
    have hnf : S.tri.faces.fwd (neg e) ≠ neg e := fun hc => hne ((inv_fixed h.coh.hf).2 hc)
    have hlt := h.coh.lt_of_not_boundary hnf
    have hnf' : S.tri.faces.fwd (S.tri.faces.inv (neg e)) ≠ S.tri.faces.inv (neg e) := by
      rw [h.coh.hf.right]; exact hne.symm
    have hlt' := h.coh.lt_of_not_boundary hnf'
    rw [h.odd _ hlt', ← neg_neg' e, h.odd _ hlt, neg_neg', cross_neg_left, cross_neg_right, neg_neg]
    rw [← h.coh.hf.right (neg e), h.faceArea_fwd]
    unfold faceArea
    rw [if_neg hnf', h.coh.hf.left, h.coh.hf.right, cross_comm]
  have hF : Flat ⟨C, fun e => (S.vec e).applyMatrix a b c d⟩ := by
    refine ⟨hC.inv.1, hC.inv.2, fun e he => ?_, fun e he => ?_, fun e he => ?_⟩
    · simp only
      rw [h.odd e (by simp only [hs] at he; exact he), applyMatrix_neg]
    · simp only [← applyMatrix_add]
      have hne : S.tri.faces.inv (neg e) ≠ neg e := fun hc => he (by
        change C.faces.fwd e = e; rw [hf, hc, neg_neg'])
      have hnf : S.tri.faces.fwd (neg e) ≠ neg e := fun hc => hne ((inv_fixed h.coh.hf).2 hc)
      have i1 : S.tri.faces.inv (neg e) = S.tri.faces.fwd (S.tri.faces.fwd (neg e)) := by
        rw [← h.coh.hf.left (S.tri.faces.fwd (S.tri.faces.fwd (neg e))), h.coh.tri]
      have l0 := h.coh.lt_of_not_boundary hnf
      have l1 := h.coh.lt_of_not_boundary (h.fwd_ne hnf)
      have l2 := h.coh.lt_of_not_boundary (h.fwd_ne (h.fwd_ne hnf))
      have hz := h.closed _ hnf
      have v0 : S.vec e = -S.vec (neg e) := by
        have := h.odd _ l0
        rwa [neg_neg'] at this
      rw [hf, hf, neg_neg', i1, h.coh.hf.left, h.odd _ l2, h.odd _ l1, v0]
      rw [show -S.vec (neg e) + -S.vec (S.tri.faces.fwd (S.tri.faces.fwd (neg e))) + -S.vec (S.tri.faces.fwd (neg e)) =
        -(S.vec (neg e) + S.vec (S.tri.faces.fwd (neg e)) + S.vec (S.tri.faces.fwd (S.tri.faces.fwd (neg e)))) by abel, hz,
        applyMatrix_neg, applyMatrix_zero, neg_zero]
    · simp only [cross_applyMatrix]
      rw [key e he]
      have hne : S.tri.faces.inv (neg e) ≠ neg e := fun hc => he (by
        change C.faces.fwd e = e; rw [hf, hc, neg_neg'])
      have hnf : S.tri.faces.fwd (neg e) ≠ neg e := fun hc => hne ((inv_fixed h.coh.hf).2 hc)
      have := h.oriented _ hnf
      unfold faceArea
      rw [if_neg hnf]
      exact mul_pos_of_neg_of_neg hd (neg_lt_zero.2 this)
  refine ⟨hF, area2_eq_of_sum h hF _ ?_⟩
  rw [← sum_neg h.coh.even S.faceArea, Finset.mul_sum]
  change ∑ e ∈ Finset.range C.size, _ = _
  rw [hs]
  refine Finset.sum_congr rfl fun e he => ?_
  rw [Finset.mem_range] at he
  have hne : C.faces.fwd e ≠ e := by
    rw [hf]
    intro hc
    have h1 := (hasBoundary_false.1 hb) (neg e) ((h.coh.neg_lt e).2 he)
    apply h1
    rw [← inv_fixed h.coh.hf]
    conv_rhs => rw [← hc, neg_neg']
  have hk := key e hne
  rw [faceArea, if_neg hne]
  simp only [cross_applyMatrix]
  rw [hk]
  ring

theorem inv_of_fwd {p q : Perm} (hp : p.WF) (hq : q.WF) (h : ∀ x, q.fwd x = p.inv x) (x : HE) : q.inv x = p.fwd x := by
  rw [← hp.left x]
  conv_lhs => rw [← h, hq.left]
  rw [hp.left]

end Verif.FlatTri
