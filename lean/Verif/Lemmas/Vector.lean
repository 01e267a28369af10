import Verif.Spec.Vector
import Mathlib.Tactic.Ring
import Mathlib.Tactic.Linarith
import Mathlib.Tactic.LinearCombination
import Mathlib.Algebra.Module.Defs

/-!
# Vectors: algebra and correctness of the interval arithmetic shortcuts
-/

set_option linter.unusedSectionVars false

namespace Verif

namespace Ball

variable {K : Type*} [Field K] [LinearOrder K] [IsStrictOrderedRing K]

theorem Mem.le {b : Ball K} {x : K} (h : b.Mem x) : x ≤ b.mid + b.rad := by
  unfold Mem at h
  rw [abs_le] at h
  linarith [h.2]

theorem Mem.ge {b : Ball K} {x : K} (h : b.Mem x) : b.mid - b.rad ≤ x := by
  unfold Mem at h
  rw [abs_le] at h
  linarith [h.1]

theorem mem_exact {x y : K} : (exact x).Mem y ↔ y = x := by
  unfold Mem exact
  simp [sub_eq_zero]

theorem Mem.eq_of_exact {b : Ball K} {x : K} (h : b.Mem x) (he : b.rad = 0) : x = b.mid := by
  unfold Mem at h
  rw [he] at h
  exact sub_eq_zero.1 (abs_eq_zero.1 (le_antisymm h (abs_nonneg _)))

/-- A definite answer of `<` is right for all elements. -/
theorem lt_sound {a b : Ball K} {x y : K} {r : Bool} (ha : a.Mem x) (hb : b.Mem y) (h : a.lt b = some r) :
    r = decide (x < y) := by
  have := ha.le; have := ha.ge; have := hb.le; have := hb.ge
  unfold lt at h
  split_ifs at h
  · cases h
    symm
    rw [decide_eq_true_eq]
    linarith
  · cases h
    symm
    rw [decide_eq_false_iff_not, not_lt]
    linarith

theorem gt_sound {a b : Ball K} {x y : K} {r : Bool} (ha : a.Mem x) (hb : b.Mem y) (h : a.gt b = some r) :
    r = decide (y < x) := by
  have := ha.le; have := ha.ge; have := hb.le; have := hb.ge
  unfold gt at h
  split_ifs at h
  · cases h
    symm
    rw [decide_eq_true_eq]
    linarith
  · cases h
    symm
    rw [decide_eq_false_iff_not, not_lt]
    linarith

theorem eq_sound {a b : Ball K} {x y : K} {r : Bool} (ha : a.Mem x) (hb : b.Mem y) (h : a.eq b = some r) :
    r = decide (x = y) := by
  have := ha.le; have := ha.ge; have := hb.le; have := hb.ge
  unfold eq at h
  split_ifs at h with h1 h2
  · cases h
    symm
    rw [decide_eq_true_eq, ha.eq_of_exact h1.1, hb.eq_of_exact h1.2.1, h1.2.2]
  · cases h
    symm
    rw [decide_eq_false_iff_not]
    rintro rfl
    apply h2
    unfold overlaps
    rw [decide_eq_true_eq, abs_le]
    constructor <;> linarith

/-- Disjoint balls are separated. -/
theorem separated {a b : Ball K} {x y : K} (ha : a.Mem x) (hb : b.Mem y) (h : a.overlaps b = false) :
    (a.mid < b.mid ∧ x < y) ∨ (b.mid < a.mid ∧ y < x) := by
  have := ha.le; have := ha.ge; have := hb.le; have := hb.ge
  have := a.rad_nonneg; have := b.rad_nonneg
  unfold overlaps at h
  rw [decide_eq_false_iff_not, abs_le, not_and_or] at h
  rcases h with h | h
  · left; constructor <;> linarith
  · right; constructor <;> linarith

end Ball

namespace Vec

section algebra

variable {T : Type*} [CommRing T]

@[simp] theorem zero_x : (0 : Vec T).x = 0 := rfl
@[simp] theorem zero_y : (0 : Vec T).y = 0 := rfl
@[simp] theorem add_x (v w : Vec T) : (v + w).x = v.x + w.x := rfl
@[simp] theorem add_y (v w : Vec T) : (v + w).y = v.y + w.y := rfl
@[simp] theorem neg_x (v : Vec T) : (-v).x = -v.x := rfl
@[simp] theorem neg_y (v : Vec T) : (-v).y = -v.y := rfl
@[simp] theorem sub_x (v w : Vec T) : (v - w).x = v.x - w.x := (sub_eq_add_neg v.x w.x).symm
@[simp] theorem sub_y (v w : Vec T) : (v - w).y = v.y - w.y := (sub_eq_add_neg v.y w.y).symm
@[simp] theorem smul_x (c : T) (v : Vec T) : (c • v).x = c * v.x := mul_comm v.x c
@[simp] theorem smul_y (c : T) (v : Vec T) : (c • v).y = c * v.y := mul_comm v.y c

instance : AddCommGroup (Vec T) where
  add_assoc a b c := by ext <;> simp [add_assoc]
  zero_add a := by ext <;> simp
  add_zero a := by ext <;> simp
  add_comm a b := by ext <;> simp [add_comm]
  neg_add_cancel a := by ext <;> simp
  nsmul := nsmulRec
  zsmul := zsmulRec
  sub_eq_add_neg a b := rfl

instance : Module T (Vec T) where
  one_smul v := by ext <;> simp
  mul_smul a b v := by ext <;> simp [mul_assoc]
  smul_zero a := by ext <;> simp
  smul_add a v w := by ext <;> simp [mul_add]
  add_smul a b v := by ext <;> simp [add_mul]
  zero_smul v := by ext <;> simp

theorem cross_self (v : Vec T) : cross v v = 0 := by unfold cross; ring
theorem cross_comm (v w : Vec T) : cross w v = -cross v w := by unfold cross; ring
theorem cross_add_left (u v w : Vec T) : cross (u + v) w = cross u w + cross v w := by simp [cross]; ring
theorem cross_add_right (u v w : Vec T) : cross u (v + w) = cross u v + cross u w := by simp [cross]; ring
theorem cross_neg_left (u v : Vec T) : cross (-u) v = -cross u v := by simp [cross]; ring
theorem cross_neg_right (u v : Vec T) : cross u (-v) = -cross u v := by simp [cross]; ring
theorem cross_sub_left (u v w : Vec T) : cross (u - v) w = cross u w - cross v w := by simp [cross]; ring
theorem cross_sub_right (u v w : Vec T) : cross u (v - w) = cross u v - cross u w := by simp [cross]; ring
theorem cross_smul_left (c : T) (v w : Vec T) : cross (c • v) w = c * cross v w := by simp [cross]; ring
theorem cross_smul_right (c : T) (v w : Vec T) : cross v (c • w) = c * cross v w := by simp [cross]; ring
@[simp] theorem cross_zero_left (v : Vec T) : cross 0 v = 0 := by simp [cross]
@[simp] theorem cross_zero_right (v : Vec T) : cross v 0 = 0 := by simp [cross]

theorem cross_applyMatrix (a b c d : T) (v w : Vec T) :
    cross (applyMatrix a b c d v) (applyMatrix a b c d w) = (a * d - b * c) * cross v w := by
  unfold cross applyMatrix; ring

theorem dot_comm (v w : Vec T) : dot v w = dot w v := by unfold dot; ring

end algebra

variable {T : Type*} [CommRing T] [LinearOrder T] [IsStrictOrderedRing T]

theorem ccwExact_ccw {v w : Vec T} : ccwExact v w = .counterclockwise ↔ 0 < cross v w := by
  have h : cross v w = v.x * w.y - w.x * v.y := by unfold cross; ring
  rw [h, sub_pos]
  unfold ccwExact
  split_ifs with h1 h2
  · simp [h1]
  · simpa using h2
  · simpa using h2

theorem ccwExact_collinear {v w : Vec T} : ccwExact v w = .collinear ↔ cross v w = 0 := by
  have h : cross v w = v.x * w.y - w.x * v.y := by unfold cross; ring
  rw [h, sub_eq_zero]
  unfold ccwExact
  split_ifs with h1 h2
  · simp [h1]
  · simpa using h1
  · simpa using h1

theorem ccwExact_clockwise {v w : Vec T} : ccwExact v w = .clockwise ↔ cross v w < 0 := by
  have h : cross v w = v.x * w.y - w.x * v.y := by unfold cross; ring
  rw [h, sub_neg]
  unfold ccwExact
  split_ifs with h1 h2
  · simp [h1]
  · simpa using le_of_lt h2
  · simpa using lt_of_le_of_ne (not_lt.1 h2) h1

theorem orientationExact_same {v w : Vec T} : orientationExact v w = .same ↔ 0 < dot v w := by
  unfold orientationExact
  split_ifs with h1 h2
  · simp [h1]
  · simpa using h2
  · simpa using h2

theorem orientationExact_orthogonal {v w : Vec T} : orientationExact v w = .orthogonal ↔ dot v w = 0 := by
  unfold orientationExact
  split_ifs with h1 h2
  · simp [h1]
  · simpa using h1
  · simpa using h1

theorem orientationExact_opposite {v w : Vec T} : orientationExact v w = .opposite ↔ dot v w < 0 := by
  unfold orientationExact
  split_ifs with h1 h2
  · simp [h1]
  · simpa using le_of_lt h2
  · simpa using lt_of_le_of_ne (not_lt.1 h2) h1

theorem nonzero_iff {v : Vec T} : v.nonzero = true ↔ v ≠ 0 := by
  unfold nonzero
  rw [Bool.or_eq_true, decide_eq_true_eq, decide_eq_true_eq]
  constructor
  · rintro h rfl
    simp at h
  · intro h
    by_contra h'
    rw [not_or, not_not, not_not] at h'
    exact h (Vec.ext h'.1 h'.2)

theorem dot_self_nonneg (v : Vec T) : 0 ≤ dot v v :=
  add_nonneg (mul_self_nonneg _) (mul_self_nonneg _)

theorem dot_self_pos {v : Vec T} (h : v ≠ 0) : 0 < dot v v := by
  refine lt_of_le_of_ne (dot_self_nonneg v) fun h' => h ?_
  have h1 := mul_self_nonneg v.x
  have h2 := mul_self_nonneg v.y
  unfold dot at h'
  exact Vec.ext (mul_self_eq_zero.1 (by linarith)) (mul_self_eq_zero.1 (by linarith))

/-- Lagrange's identity. -/
theorem lagrange (v w : Vec T) : dot v w * dot v w + cross v w * cross v w = dot v v * dot w w := by
  unfold dot cross; ring

theorem dot_ne_zero {v w : Vec T} (hv : v ≠ 0) (hw : w ≠ 0) (h : cross v w = 0) : dot v w ≠ 0 := by
  intro h'
  have := lagrange v w
  rw [h, h', mul_zero, add_zero] at this
  exact absurd this (mul_pos (dot_self_pos hv) (dot_self_pos hw)).ne

section approximations

variable {K : Type*} [Field K] [LinearOrder K] [IsStrictOrderedRing K]

theorem ccwArb_sound (A : Approx T K) {v w : Vec T} {c} (h : ccwArb A v w = some c) : c = ccwExact v w := by
  have ha := A.mul_mem (A.arb_mem v.x) (A.arb_mem w.y)
  have hb := A.mul_mem (A.arb_mem w.x) (A.arb_mem v.y)
  rw [← map_mul] at ha hb
  unfold ccwArb at h
  simp only at h
  split_ifs at h with h1 h2 h3 h4
  · cases h
    rw [Bool.and_eq_true] at h2
    have e1 := ha.eq_of_exact (of_decide_eq_true h2.1)
    have e2 := hb.eq_of_exact (of_decide_eq_true h2.2)
    have : v.x * w.y = w.x * v.y := A.strictMono.injective (e1.trans (h3.trans e2.symm))
    unfold ccwExact
    rw [if_pos this]
  · cases h
    rcases Ball.separated ha hb (by simpa using h1) with h' | h'
    · have : v.x * w.y < w.x * v.y := A.strictMono.lt_iff_lt.1 h'.2
      unfold ccwExact
      rw [if_neg this.ne, if_neg this.not_gt]
    · exact absurd h4 h'.1.not_gt
  · cases h
    rcases Ball.separated ha hb (by simpa using h1) with h' | h'
    · exact absurd h'.1 h4
    · have : w.x * v.y < v.x * w.y := A.strictMono.lt_iff_lt.1 h'.2
      unfold ccwExact
      rw [if_neg this.ne', if_pos this]

/-- The shortcut in `ccw` does not change the answer. -/
theorem ccw_eq (A : Option (Approx T K)) (v w : Vec T) : ccw A v w = ccwExact v w := by
  unfold ccw
  cases A with
  | none => rfl
  | some A =>
    simp only
    cases h : ccwArb A v w with
    | none => rfl
    | some c => exact ccwArb_sound A h

theorem dotArb_mem (A : Approx T K) (v w : Vec T) : (dotArb A v w).Mem (A.value (dot v w)) := by
  unfold dot
  rw [map_add, map_mul, map_mul]
  exact A.add_mem (A.mul_mem (A.arb_mem _) (A.arb_mem _)) (A.mul_mem (A.arb_mem _) (A.arb_mem _))

theorem orientationArb_sound (A : Approx T K) {v w : Vec T} {c} (h : orientationArb A v w = some c)
    (h0 : dot v w = 0 → (dotArb A v w).mid + (dotArb A v w).rad = 0 → (dotArb A v w).rad = 0) :
    c = orientationExact v w := by
  have hm := dotArb_mem A v w
  have h00 : (Ball.exact (0 : K)).Mem 0 := Ball.mem_exact.2 rfl
  unfold orientationArb at h
  split at h
  · rename_i hg
    cases h
    have := Ball.gt_sound hm h00 hg
    have : 0 < A.value (dot v w) := of_decide_eq_true this.symm
    rw [← map_zero A.value] at this
    exact (orientationExact_same.2 (A.strictMono.lt_iff_lt.1 this)).symm
  · rename_i hg
    have h1 := Ball.gt_sound hm h00 hg
    have h1 := not_lt.1 (of_decide_eq_false h1.symm)
    rw [← map_zero A.value, A.strictMono.le_iff_le] at h1
    split_ifs at h with he
    · cases h
      have := Ball.eq_sound hm h00 he
      have : A.value (dot v w) = 0 := of_decide_eq_true this.symm
      rw [← map_zero A.value] at this
      exact (orientationExact_orthogonal.2 (A.strictMono.injective this)).symm
    · cases h
      refine (orientationExact_opposite.2 (lt_of_le_of_ne h1 fun hz => he ?_)).symm
      have hup : (dotArb A v w).mid + (dotArb A v w).rad = 0 := by
        apply le_antisymm
        · unfold Ball.gt at hg
          split_ifs at hg with g1 g2
          · cases hg
          · have : (Ball.exact (0 : K)).mid - (Ball.exact (0 : K)).rad = 0 := sub_zero _
            rwa [this] at g2
        · have := hm.le
          rw [hz, map_zero] at this
          exact this
      have hr := h0 hz hup
      unfold Ball.eq
      rw [if_pos]
      refine ⟨hr, rfl, ?_⟩
      rw [hr, add_zero] at hup
      exact hup
  · cases h

/-- The shortcut in `orientation` does not change the answer for vectors that are not orthogonal. -/
theorem orientation_eq (A : Option (Approx T K)) {v w : Vec T} (h : dot v w ≠ 0) :
    orientation A v w = orientationExact v w := by
  unfold orientation
  cases A with
  | none => rfl
  | some A =>
    simp only
    cases h' : orientationArb A v w with
    | none => rfl
    | some c => exact orientationArb_sound A h' fun h0 => absurd h0 h

/-- The shortcut in `orientation` is sound when it says that vectors point into the same half plane. -/
theorem orientation_same (A : Option (Approx T K)) {v w : Vec T} : orientation A v w = .same ↔ 0 < dot v w := by
  by_cases h : dot v w = 0
  · refine ⟨fun hs => ?_, fun hc => absurd h hc.ne'⟩
    unfold orientation at hs
    cases A with
    | none => exact orientationExact_same.1 hs
    | some A =>
      simp only at hs
      cases h' : orientationArb A v w with
      | none => rw [h'] at hs; exact orientationExact_same.1 hs
      | some c =>
        rw [h', Option.getD_some] at hs
        subst hs
        unfold orientationArb at h'
        split at h'
        · rename_i hg
          have := Ball.gt_sound (dotArb_mem A v w) (Ball.mem_exact.2 rfl) hg
          have : 0 < A.value (dot v w) := of_decide_eq_true this.symm
          rw [h, map_zero] at this
          exact absurd this (lt_irrefl _)
        · split_ifs at h' <;> cases h'
        · cases h'
  · rw [orientation_eq A h, orientationExact_same]

theorem compareLength_eq (A : Option (Approx T K)) (v w : Vec T) :
    compareLength A v w = decide (dot v v < dot w w) := by
  unfold compareLength
  cases A with
  | none => rfl
  | some A =>
    simp only
    cases h : (dotArb A v v).lt (dotArb A w w) with
    | none => rfl
    | some c =>
      have := Ball.lt_sound (dotArb_mem A v v) (dotArb_mem A w w) h
      rw [Option.getD_some, this]
      simp only [A.strictMono.lt_iff_lt]

end approximations

end Vec

end Verif
