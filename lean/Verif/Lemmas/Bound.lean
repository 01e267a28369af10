import Verif.Model.Bound
import Verif.Lemmas.Vector
import Mathlib.Data.Rat.Floor
import Mathlib.Algebra.Order.Floor.Ring

/-!
# Bounds: rounding of rationals and correctness of the interval arithmetic shortcuts
-/

set_option linter.unusedSectionVars false

namespace Verif

open Vec _root_.Verif.Bound

theorem rat_tdiv (q : ℚ) (hq : 0 ≤ q) : q.num.tdiv q.den = ⌊q⌋ := by
  rw [Rat.floor_def']
  exact (Int.tdiv_eq_ediv_of_nonneg (Rat.num_nonneg.2 hq))

theorem rat_ceil (q : ℚ) (hq : 0 ≤ q) :
    q.num.tdiv q.den + (if q.num.tmod q.den ≠ 0 then 1 else 0) = ⌈q⌉ := by
  rw [rat_tdiv q hq]
  have hn := Rat.num_nonneg.2 hq
  have hd : (0 : ℚ) < q.den := by exact_mod_cast q.den_pos
  have key := Int.mul_tdiv_add_tmod q.num q.den
  rw [rat_tdiv q hq] at key
  have hq' : (q.num : ℚ) = q * q.den := (Rat.mul_den_eq_num q).symm
  symm
  split_ifs with h
  · rw [Int.ceil_eq_iff]
    constructor
    · push_cast
      have h1 : (⌊q⌋ : ℚ) < q := by
        refine lt_of_le_of_ne (Int.floor_le q) fun h' => h ?_
        have : (q.num : ℚ) = ((q.den * ⌊q⌋ : ℤ) : ℚ) := by
          rw [hq']
          push_cast
          rw [h', mul_comm]
        have := Int.cast_injective (α := ℚ) this
        linarith
      linarith
    · push_cast
      exact (Int.lt_floor_add_one q).le
  · rw [not_not] at h
    rw [h, add_zero] at key
    rw [add_zero]
    have : q = ⌊q⌋ := by
      have h2 : (q.num : ℚ) = q.den * ⌊q⌋ := by rw [← key]; push_cast; rw [← Int.cast_natCast q.den]
      rw [hq', mul_comm] at h2
      exact mul_left_cancel₀ hd.ne' h2
    rw [this, Int.ceil_intCast, Int.floor_intCast]

variable {T : Type*} [CommRing T] [LinearOrder T] [IsStrictOrderedRing T]
variable {K : Type*} [Field K] [LinearOrder K] [IsStrictOrderedRing K]

theorem encloses_arb (A : Approx T K) (v : Vec T) : Encloses A ⟨A.arb v.x, A.arb v.y⟩ v := ⟨A.arb_mem _, A.arb_mem _⟩

theorem nonzeroArb_sound (A : Approx T K) {w : Vec (Ball K)} {v : Vec T} (hv : Encloses A w v) {r : Bool}
    (h : nonzeroArb w = some r) : r = v.nonzero := by
  have h0 : (Ball.exact (0 : K)).Mem 0 := Ball.mem_exact.2 rfl
  have hz : ∀ t : T, A.value t = 0 ↔ t = 0 := fun t => by rw [← map_zero A.value, A.strictMono.injective.eq_iff]
  unfold nonzeroArb at h
  unfold Vec.nonzero
  split at h
  · rename_i x y h1 h2
    cases h
    rw [Ball.eq_sound hv.1 h0 h1, Ball.eq_sound hv.2 h0 h2]
    simp [hz]
  · rename_i h1 h2
    cases h
    have := Ball.eq_sound hv.1 h0 h1
    have := of_decide_eq_false this.symm
    rw [hz] at this
    simp [this]
  · rename_i h1 h2
    cases h
    have := Ball.eq_sound hv.2 h0 h2
    have := of_decide_eq_false this.symm
    rw [hz] at this
    simp [this]
  · cases h

theorem sizeArb_mem (A : Approx T K) {w : Vec (Ball K)} {v : Vec T} (hv : Encloses A w v) :
    (sizeArb A w).Mem (A.value (dot v v)) := by
  unfold dot
  rw [map_add, map_mul, map_mul]
  exact A.add_mem (A.mul_mem hv.1 hv.1) (A.mul_mem hv.2 hv.2)

theorem square_of_zero {b : Bound} (h : b.nonzero = false) : b.square = 0 := by
  simpa [Bound.nonzero] using h

theorem nonzero_eq (v : Vec T) : v.nonzero = decide (0 < dot v v) := by
  rw [Bool.eq_iff_iff, nonzero_iff, decide_eq_true_eq]
  constructor
  · exact dot_self_pos
  · rintro h' rfl
    simp [dot] at h'

theorem gtBoundArb_sound (A : Approx T K) {w : Vec (Ball K)} {v : Vec T} (hv : Encloses A w v) {b : Bound} {r : Bool}
    (h : gtBoundArb A w b = some r) : r = decide ((b.square : T) < dot v v) := by
  have hsize : ∀ {r}, (sizeArb A w).gt (Ball.exact (b.square : K)) = some r → r = decide ((b.square : T) < dot v v) := by
    intro r h
    have := Ball.gt_sound (sizeArb_mem A hv) (Ball.mem_exact.2 rfl) h
    rw [this, ← map_intCast A.value]
    simp only [A.strictMono.lt_iff_lt]
  unfold gtBoundArb at h
  simp only at h
  split_ifs at h with h1
  · rw [Bool.not_eq_true'] at h1
    split at h
    · rename_i r' h2
      cases h
      rw [square_of_zero h1, nonzeroArb_sound A hv h2, nonzero_eq, Int.cast_zero]
    · exact hsize h
  · exact hsize h

theorem ltBoundArb_sound (A : Approx T K) {w : Vec (Ball K)} {v : Vec T} (hv : Encloses A w v) {b : Bound} {r : Bool}
    (h : ltBoundArb A w b = some r) : r = decide (dot v v < (b.square : T)) := by
  unfold ltBoundArb at h
  split_ifs at h with h1
  · rw [Bool.not_eq_true'] at h1
    cases h
    rw [square_of_zero h1, Int.cast_zero]
    exact (decide_eq_false (not_lt.2 (dot_self_nonneg v))).symm
  · have := Ball.lt_sound (sizeArb_mem A hv) (Ball.mem_exact.2 rfl) h
    rw [this, ← map_intCast A.value]
    simp only [A.strictMono.lt_iff_lt]

theorem gtBound_eq (A : Option (Approx T K)) (v : Vec T) (b : Bound) :
    gtBound A v b = decide ((b.square : T) < dot v v) := by
  unfold gtBound
  by_cases h : b.nonzero = true
  · rw [h]
    simp only [Bool.not_true, Bool.false_eq_true, if_false]
    cases A with
    | none => rfl
    | some A =>
      simp only
      cases h' : gtBoundArb A ⟨A.arb v.x, A.arb v.y⟩ b with
      | none => rfl
      | some c => exact gtBoundArb_sound A (encloses_arb A v) h'
  · rw [Bool.not_eq_true] at h
    rw [h, square_of_zero h, Int.cast_zero]
    exact nonzero_eq v

theorem ltBound_eq (A : Option (Approx T K)) (v : Vec T) (b : Bound) :
    ltBound A v b = decide (dot v v < (b.square : T)) := by
  unfold ltBound
  by_cases h : b.nonzero = true
  · rw [h]
    simp only [Bool.not_true, Bool.false_eq_true, if_false]
    cases A with
    | none => rfl
    | some A =>
      simp only
      cases h' : ltBoundArb A ⟨A.arb v.x, A.arb v.y⟩ b with
      | none => rfl
      | some c => exact ltBoundArb_sound A (encloses_arb A v) h'
  · rw [Bool.not_eq_true] at h
    rw [h, square_of_zero h, Int.cast_zero]
    exact (decide_eq_false (not_lt.2 (dot_self_nonneg v))).symm

end Verif
