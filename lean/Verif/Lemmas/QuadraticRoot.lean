import Verif.Spec.QuadraticRoot
import Mathlib.Algebra.QuadraticDiscriminant
import Mathlib.Tactic.Linarith
import Mathlib.Tactic.FieldSimp
import Mathlib.Tactic.LinearCombination

/-!
# Helper lemmas about roots of quadratic polynomials
-/

namespace Verif.QuadraticRoot

open Verif Spec Quadratic

variable {T : Type} [CommRing T] [LinearOrder T] [IsStrictOrderedRing T]

theorem mem_iff {b : Ball ℝ} {x : ℝ} : b.Mem x ↔ b.mid - b.rad ≤ x ∧ x ≤ b.mid + b.rad := by
  unfold Ball.Mem
  rw [abs_le]
  constructor <;> rintro ⟨h1, h2⟩ <;> constructor <;> linarith

theorem mem_exact {x y : ℝ} : (Ball.exact x).Mem y ↔ y = x := by
  rw [mem_iff]
  unfold Ball.exact
  constructor
  · rintro ⟨h1, h2⟩
    simp only [sub_zero, add_zero] at h1 h2
    linarith
  · rintro rfl
    simp

theorem lt_true {a b : Ball ℝ} {x y : ℝ} (h : a.lt b = some true) (ha : a.Mem x) (hb : b.Mem y) : x < y := by
  rw [mem_iff] at ha hb
  unfold Ball.lt at h
  split at h
  · linarith [ha.2, hb.1]
  · split at h <;> simp at h

theorem lt_false {a b : Ball ℝ} {x y : ℝ} (h : a.lt b = some false) (ha : a.Mem x) (hb : b.Mem y) : y ≤ x := by
  rw [mem_iff] at ha hb
  unfold Ball.lt at h
  split at h
  · simp at h
  · split at h
    · linarith [ha.1, hb.2]
    · simp at h

theorem lt_none {a b : Ball ℝ} (h : a.lt b = none) : ∃ x, a.Mem x ∧ b.Mem x := by
  simp only [mem_iff]
  unfold Ball.lt at h
  split at h
  · simp at h
  · rename_i h1
    split at h
    · simp at h
    · rename_i h2
      push Not at h1 h2
      have := a.rad_nonneg
      have := b.rad_nonneg
      refine ⟨max (a.mid - a.rad) (b.mid - b.rad), ⟨le_max_left _ _, max_le (by linarith) (by linarith)⟩, le_max_right _ _,
        max_le (by linarith) (by linarith)⟩

theorem gt_true {a b : Ball ℝ} {x y : ℝ} (h : a.gt b = some true) (ha : a.Mem x) (hb : b.Mem y) : y < x := by
  rw [mem_iff] at ha hb
  unfold Ball.gt at h
  split at h
  · linarith [ha.1, hb.2]
  · split at h <;> simp at h

theorem gt_false {a b : Ball ℝ} {x y : ℝ} (h : a.gt b = some false) (ha : a.Mem x) (hb : b.Mem y) : x ≤ y := by
  rw [mem_iff] at ha hb
  unfold Ball.gt at h
  split at h
  · simp at h
  · split at h
    · linarith [ha.2, hb.1]
    · simp at h

theorem gt_none {a : Ball ℝ} {y : ℝ} (h : a.gt (Ball.exact y) = none) : a.Mem y := by
  rw [mem_iff]
  unfold Ball.gt Ball.exact at h
  simp only [add_zero, sub_zero] at h
  split at h
  · simp at h
  · rename_i h1
    split at h
    · simp at h
    · rename_i h2
      push Not at h1 h2
      exact ⟨h1, h2.le⟩

theorem lt_none_exact {a : Ball ℝ} {y : ℝ} (h : a.lt (Ball.exact y) = none) : a.Mem y := by
  obtain ⟨x, h1, h2⟩ := lt_none h
  rwa [mem_exact.1 h2] at h1

theorem eval_zero (p : Quadratic T) : p.eval 0 = p.c := by
  unfold eval
  rw [if_pos rfl]

theorem eval_one (p : Quadratic T) : p.eval 1 = p.a + p.b + p.c := by
  unfold eval
  rw [if_neg one_ne_zero, if_pos rfl]

theorem root_one {f : T →+* ℝ} {p : Quadratic T} (h : p.eval 1 = 0) : IsRoot f p 1 := by
  rw [eval_one] at h
  have := congrArg f h
  simp only [map_add, map_zero] at this
  unfold IsRoot
  linarith

/-- The outcomes of the validation of an approximate solution. -/
theorem validate_cases {p : Quadratic T} {again : Option (Option (Ball ℝ))} {s : Option (Ball ℝ)} {r : Option (Ball ℝ)} {w : ℝ}
    (hc : p.c ≠ 0) (hs : ∀ b, s = some b → b.Mem w) (h : p.validate again s = some r) :
    again = some r ∨ (r = some (Ball.exact 1) ∧ p.eval 1 = 0 ∧ ∃ b, s = some b ∧ b.Mem 1) ∨ (r = none ∧ ¬ (0 ≤ w ∧ w ≤ 1)) ∨
      ∃ b, r = some b ∧ s = some b ∧ 0 ≤ w ∧ w ≤ 1 := by
  unfold validate at h
  cases s with
  | none =>
    simp only [Option.bind_none] at h
    rw [eval_zero, if_neg hc] at h
    exact .inl h
  | some b =>
    have hb := hs b rfl
    simp only [Option.bind_some] at h
    split at h
    · rw [eval_zero, if_neg hc] at h
      exact .inl h
    · rename_i lt0 h0
      split at h
      · rename_i h1
        split at h
        · cases h
          exact .inr (.inl ⟨rfl, ‹_›, b, rfl, gt_none h1⟩)
        · exact .inl h
      · rename_i gt1 h1
        cases lt0 with
        | true =>
          exact .inr (.inr (.inl ⟨by simpa using h.symm, fun k => absurd (lt_true h0 hb (mem_exact.2 rfl)) (not_lt.2 k.1)⟩))
        | false =>
          cases gt1 with
          | true =>
            exact .inr (.inr (.inl ⟨by simpa using h.symm, fun k => absurd (gt_true h1 hb (mem_exact.2 rfl)) (not_lt.2 k.2)⟩))
          | false =>
            exact .inr (.inr (.inr ⟨b, by simpa using h.symm, rfl, lt_false h0 hb (mem_exact.2 rfl),
              gt_false h1 hb (mem_exact.2 rfl)⟩))

/-- When the ball is small enough, then there is no recursion. -/
theorem validate_some {p : Quadratic T} {s : Ball ℝ} {w : ℝ} (again : Option (Option (Ball ℝ))) (hs : s.Mem w) (h0 : w ≠ 0)
    (h1 : w ≠ 1 ∨ p.eval 1 = 0) (hr0 : 2 * s.rad < |w|) (hr1 : w ≠ 1 → 2 * s.rad < |w - 1|) :
    ∃ r, p.validate again (some s) = some r := by
  unfold validate
  simp only [Option.bind_some]
  rw [mem_iff] at hs
  split
  · rename_i h
    have := mem_iff.1 (lt_none_exact h)
    exfalso
    rcases abs_cases w with h | h <;> linarith [hs.1, hs.2, this.1, this.2]
  · split
    · rename_i h
      have := mem_iff.1 (gt_none h)
      by_cases hw : w = 1
      · rw [if_pos (h1.resolve_left fun k => k hw)]
        exact ⟨_, rfl⟩
      · exfalso
        have hw' := hr1 hw
        rcases abs_cases (w - 1) with h | h <;> linarith [hs.1, hs.2, this.1, this.2]
    · split
      · exact ⟨_, rfl⟩
      · split <;> exact ⟨_, rfl⟩

variable {f : T →+* ℝ}

theorem ne_zero (hf : StrictMono f) {x : T} (h : x ≠ 0) : f x ≠ 0 := fun k => h (hf.injective (k.trans (map_zero f).symm))

theorem disc_eq (f : T →+* ℝ) (p : Quadratic T) : disc f p = f (p.b * p.b - 4 * p.a * p.c) := by
  unfold disc
  simp only [map_sub, map_mul, map_ofNat]

theorem disc_pos (hf : StrictMono f) {p : Quadratic T} (h1 : ¬ p.b * p.b - 4 * p.a * p.c < 0) (h2 : p.b * p.b - 4 * p.a * p.c ≠ 0) :
    0 < disc f p := by
  rw [disc_eq, ← map_zero f]
  exact hf (lt_of_le_of_ne (not_lt.1 h1) h2.symm)

theorem linear_root (hf : StrictMono f) {p : Quadratic T} (ha : p.a = 0) (hb : p.b ≠ 0) {t : ℝ} :
    IsRoot f p t ↔ t = -f p.c / f p.b := by
  have := ne_zero hf hb
  unfold IsRoot
  rw [ha, map_zero, zero_mul, zero_add, eq_div_iff this]
  constructor <;> intro h <;> linarith

theorem double_root (hf : StrictMono f) {p : Quadratic T} (ha : p.a ≠ 0) (hd : p.b * p.b - 4 * p.a * p.c = 0) {t : ℝ} :
    IsRoot f p t ↔ t = -f p.b / (2 * f p.a) := by
  have h : discrim (f p.a) (f p.b) (f p.c) = 0 := by
    have := disc_eq f p
    rw [hd, map_zero] at this
    unfold disc at this
    unfold discrim
    linarith
  rw [← quadratic_eq_zero_iff_of_discrim_eq_zero (ne_zero hf ha) h]
  unfold IsRoot
  rw [sq]

theorem two_roots (hf : StrictMono f) {p : Quadratic T} (ha : p.a ≠ 0) (hd : 0 < disc f p) {t : ℝ} :
    IsRoot f p t ↔ t = plusRoot f p ∨ t = minusRoot f p := by
  have h : discrim (f p.a) (f p.b) (f p.c) = √(disc f p) * √(disc f p) := by
    rw [Real.mul_self_sqrt hd.le]
    unfold disc discrim
    ring
  unfold plusRoot minusRoot
  rw [← quadratic_eq_zero_iff (ne_zero hf ha) h]
  unfold IsRoot
  rw [sq]

theorem roots_ne (hf : StrictMono f) {p : Quadratic T} (ha : p.a ≠ 0) (hd : 0 < disc f p) : plusRoot f p ≠ minusRoot f p := by
  have h1 := ne_zero hf ha
  have h2 := Real.sqrt_pos.2 hd
  intro h
  unfold plusRoot minusRoot at h
  rw [div_left_inj' (by simpa using h1)] at h
  linarith

theorem no_root (hf : StrictMono f) {p : Quadratic T} (hd : p.b * p.b - 4 * p.a * p.c < 0) (t : ℝ) : ¬ IsRoot f p t := by
  intro h
  have h1 := hf hd
  rw [← disc_eq, map_zero] at h1
  unfold disc at h1
  unfold IsRoot at h
  have h2 : (2 * f p.a * t + f p.b) ^ 2 = f p.b * f p.b - 4 * f p.a * f p.c := by linear_combination 4 * f p.a * h
  linarith [sq_nonneg (2 * f p.a * t + f p.b)]

end Verif.QuadraticRoot
