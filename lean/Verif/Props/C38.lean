import Verif.Lemmas.LinearNormalize
import Verif.Spec.LinearEquivalence
import Mathlib.Algebra.Order.Field.Rat

/-!
# C38: linear normalization is invariant under the group

`LinearEquivalence.normalize dbg quot group v w` is the matrix that is attached to a pair of edges with vectors `v` and `w`.
The division `quot` of the ring is only assumed to find quotients that exist, see `ExactQuot`.
-/

namespace Verif.C38

open LinearEquivalence Spec

variable {T : Type} [CommRing T] [LinearOrder T] [IsStrictOrderedRing T]

/-- For GL, the vectors go to the standard basis. -/
theorem gl_standard {dbg : Bool} {quot : T → T → T} {v w : Vec T} {M : Mat T} (h : normalize dbg quot .gl v w = .ok M) :
    M.apply v = ⟨1, 0⟩ ∧ M.apply w = ⟨0, 1⟩ ∧ M.det * Vec.cross v w = 1 := by
  obtain ⟨-, h1, h2⟩ := orthonormalize_ok h
  exact ⟨h1, h2, orthonormalize_det h1 h2⟩

/-- For SL±, the vectors go to a multiple of the standard basis with a matrix of determinant ±1; the sign is the orientation
of the pair of vectors. -/
theorem sl_standard {dbg : Bool} {quot : T → T → T} (hq : ExactQuot quot) {v w : Vec T} {M : Mat T}
    (h : normalize dbg quot .sl v w = .ok M) :
    M.apply v = ⟨1, 0⟩ ∧ M.apply w = ⟨0, |Vec.cross v w|⟩ ∧ (0 < Vec.cross v w → M.det = 1) ∧
      (Vec.cross v w < 0 → M.det = -1) := by
  obtain ⟨h0, h1, h2⟩ := orthogonalize_ok hq h
  obtain ⟨h3, -⟩ := orthogonalize_det h0 h1 h2
  refine ⟨h1, h2, fun h4 => ?_, fun h4 => ?_⟩
  · rw [abs_of_pos h4] at h3
    exact mul_right_cancel₀ h0 (by linear_combination h3)
  · rw [abs_of_neg h4] at h3
    exact mul_right_cancel₀ h0 (by linear_combination h3)

/-- Every normalizing matrix is an element of the group. -/
theorem in_group {dbg : Bool} {quot : T → T → T} (hq : ExactQuot quot) {group : LinearGroup} {v w : Vec T} {M : Mat T}
    (h : normalize dbg quot group v w = .ok M) : InGroup group M := by
  cases group with
  | trivial => cases h; rfl
  | gl => exact .of_mul_eq_one _ (gl_standard h).2.2
  | sl =>
    obtain ⟨h0, h1, h2⟩ := orthogonalize_ok hq h
    exact (orthogonalize_det h0 h1 h2).2

/-- The standard position does not depend on the surface in the orbit: after normalization there is no difference between the
vectors `u` and their images `g u`. -/
theorem invariant {dbg : Bool} {quot : T → T → T} (hq : ExactQuot quot) {group : LinearGroup} {g : Mat T} (hg : InGroup group g)
    {v w : Vec T} {M N : Mat T} (hM : normalize dbg quot group v w = .ok M)
    (hN : normalize dbg quot group (g.apply v) (g.apply w) = .ok N) (u : Vec T) : N.apply (g.apply u) = M.apply u := by
  rw [← Mat.mul_apply]
  congr 1
  cases group with
  | trivial =>
    cases hM
    cases hN
    rw [show g = ⟨1, 0, 0, 1⟩ from hg]
    simp [Mat.mul]
  | gl =>
    obtain ⟨h0, h1, h2⟩ := orthonormalize_ok hM
    obtain ⟨-, h1', h2'⟩ := orthonormalize_ok hN
    exact Mat.ext_of_apply h0 (by rw [Mat.mul_apply, h1, h1']) (by rw [Mat.mul_apply, h2, h2'])
  | sl =>
    obtain ⟨h0, h1, h2⟩ := orthogonalize_ok hq hM
    obtain ⟨-, h1', h2'⟩ := orthogonalize_ok hq hN
    refine Mat.ext_of_apply h0 (by rw [Mat.mul_apply, h1, h1']) ?_
    rw [Mat.mul_apply, h2, h2', Mat.cross_apply, abs_mul, show |g.det| = 1 by rcases hg with h | h <;> rw [h] <;> simp,
      one_mul]

/-- Normalization is possible exactly if a matrix over the ring takes the vectors to the standard basis. -/
theorem possible_iff {dbg : Bool} {quot : T → T → T} (hq : ExactQuot quot) {group : LinearGroup} (hgroup : group ≠ .trivial)
    {v w : Vec T} (h0 : Vec.cross v w ≠ 0) :
    (∃ M, normalize dbg quot group v w = .ok M) ↔ ∃ M : Mat T, M.apply v = ⟨1, 0⟩ ∧ M.apply w = ⟨0, 1⟩ := by
  have hgl : (∃ M, orthonormalize dbg quot v w = .ok M) ↔ ∃ M : Mat T, M.apply v = ⟨1, 0⟩ ∧ M.apply w = ⟨0, 1⟩ :=
    ⟨fun ⟨M, h⟩ => ⟨M, (orthonormalize_ok h).2⟩, fun ⟨M, h1, h2⟩ => ⟨M, orthonormalize_of dbg hq h0 h1 h2⟩⟩
  cases group with
  | trivial => exact absurd rfl hgroup
  | gl => exact hgl
  | sl => exact (orthogonalize_of_orthonormalize dbg hq).trans hgl

/-- If normalization is not possible, this is reported by throwing an exception. -/
theorem throws_otherwise {dbg : Bool} {quot : T → T → T} (hq : ExactQuot quot) {group : LinearGroup} (hgroup : group ≠ .trivial)
    {v w : Vec T} (h0 : Vec.cross v w ≠ 0) (h : ¬ ∃ M : Mat T, M.apply v = ⟨1, 0⟩ ∧ M.apply w = ⟨0, 1⟩) :
    normalize dbg quot group v w = .error .logicError := by
  rw [← possible_iff (dbg := dbg) hq hgroup h0] at h
  cases hn : normalize dbg quot group v w with
  | ok M => exact absurd ⟨M, hn⟩ h
  | error e =>
    cases group with
    | trivial => exact absurd rfl hgroup
    | gl => rw [orthonormalize_error h0 hn]
    | sl => rw [orthogonalize_error h0 hn]

/-- So whether normalization is possible does not depend on the surface in the orbit either. -/
theorem possible_invariant {dbg : Bool} {quot : T → T → T} (hq : ExactQuot quot) {group : LinearGroup} {g : Mat T}
    (hg : InGroup group g) {v w : Vec T} (h0 : Vec.cross v w ≠ 0) :
    (∃ M, normalize dbg quot group v w = .ok M) ↔ ∃ M, normalize dbg quot group (g.apply v) (g.apply w) = .ok M := by
  by_cases ht : group = .trivial
  · subst ht
    exact ⟨fun _ => ⟨_, rfl⟩, fun _ => ⟨_, rfl⟩⟩
  have hu : IsUnit g.det := by
    cases group with
    | trivial => exact absurd rfl ht
    | gl => exact hg
    | sl => rcases hg with h | h <;> rw [h] <;> simp
  obtain ⟨i, hi⟩ := hu.exists_left_inv
  have hg0 : Vec.cross (g.apply v) (g.apply w) ≠ 0 := by
    rw [Mat.cross_apply]
    exact mul_ne_zero (fun hc => by rw [hc, mul_zero] at hi; exact zero_ne_one hi) h0
  rw [possible_iff hq ht h0, possible_iff hq ht hg0]
  constructor
  · rintro ⟨M, h1, h2⟩
    have key : ∀ u : Vec T, (M.mul ⟨i * g.d, -(i * g.b), -(i * g.c), i * g.a⟩).apply (g.apply u) = M.apply u := by
      intro u
      rw [Mat.mul_apply]
      congr 1
      unfold Mat.det at hi
      ext
      · simp only [Mat.apply_x, Mat.apply_y]
        linear_combination u.x * hi
      · simp only [Mat.apply_x, Mat.apply_y]
        linear_combination u.y * hi
    exact ⟨_, (key v).trans h1, (key w).trans h2⟩
  · rintro ⟨M, h1, h2⟩
    exact ⟨M.mul g, by rw [Mat.mul_apply, h1], by rw [Mat.mul_apply, h2]⟩

/-! ### Examples -/

/-- The division of integers, and of rational numbers. -/
example : ExactQuot (fun n d : ℤ => n / d) ∧ ExactQuot (fun n d : ℚ => n / d) :=
  ⟨fun _ _ _ hd h => Int.ediv_eq_of_eq_mul_left hd h.symm, fun _ _ _ hd h => (eq_div_of_mul_eq hd h).symm⟩

/-- A pair of vectors of integers that can be normalized, and one that cannot. -/
example : normalize true (fun n d : ℤ => n / d) .sl ⟨2, 1⟩ ⟨1, 1⟩ = .ok ⟨1, -1, -1, 2⟩ ∧
    normalize true (fun n d : ℤ => n / d) .gl ⟨2, 1⟩ ⟨1, 2⟩ = .error .logicError := ⟨rfl, rfl⟩

/-- A pair with the other orientation. -/
example : normalize true (fun n d : ℚ => n / d) .sl ⟨0, 1⟩ ⟨2, 1⟩ = .ok ⟨-1/2, 1, 1, 0⟩ := by
  norm_num [LinearEquivalence.normalize, orthogonalize, orthonormalize, div, bind, Except.bind, pure, Except.pure]

/-- An element of each group, and a vector without trivial image. -/
example : InGroup .sl (⟨2, 1, 1, 1⟩ : Mat ℤ) ∧ InGroup .gl (⟨1, 2, 0, -1⟩ : Mat ℤ) := ⟨.inl rfl, .of_mul_eq_one (-1) rfl⟩

end Verif.C38
