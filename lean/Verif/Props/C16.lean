import Verif.Lemmas.Vector
import Mathlib.Order.WithBot
import Mathlib.Analysis.SpecialFunctions.Sqrt
import Mathlib.Tactic.FieldSimp

/-!
# C16: slope and length comparisons are strict weak orders
-/

namespace Verif.C16

open Vec

variable {T : Type*} [CommRing T] [LinearOrder T] [IsStrictOrderedRing T]
variable {K : Type*} [Field K] [LinearOrder K] [IsStrictOrderedRing K]

/-- The slope of a vector as a number or infinity. -/
noncomputable def slope (v : Vec K) : WithTop K := if v.x = 0 then ⊤ else ((v.y / v.x : K) : WithTop K)

/-- The length of a vector. -/
noncomputable def length (v : Vec ℝ) : ℝ := Real.sqrt (v.x ^ 2 + v.y ^ 2)

/-- A strict weak order in the sense of the C++ standard (utilities for sorting and associative containers): irreflexive
and transitive, and not being comparable is transitive. -/
def StrictWeakOrder {α : Type*} (s : Set α) (lt : α → α → Bool) : Prop :=
  (∀ a ∈ s, lt a a = false) ∧
  (∀ a ∈ s, ∀ b ∈ s, ∀ c ∈ s, lt a b = true → lt b c = true → lt a c = true) ∧
  (∀ a ∈ s, ∀ b ∈ s, ∀ c ∈ s, lt a b = false → lt b a = false → lt b c = false → lt c b = false →
    lt a c = false ∧ lt c a = false)

omit [IsStrictOrderedRing T] in
/-- `CompareSlope` compares slopes. Here `f` says which numbers the coordinates are. -/
theorem compareSlope_correct (f : T →+* K) (hf : StrictMono f) (v w : Vec T) :
    compareSlope v w = true ↔ slope (v.map f) < slope (w.map f) := by
  have hz : ∀ t : T, f t = 0 ↔ t = 0 := fun t => by rw [← map_zero f, hf.injective.eq_iff]
  have hneg : ∀ t : T, t < 0 ↔ f t < 0 := fun t => by rw [← map_zero f, hf.lt_iff_lt]
  unfold compareSlope slope map
  simp only [hz]
  by_cases hw : w.x = 0
  · rw [if_pos hw, if_pos hw]
    by_cases hv : v.x = 0
    · rw [if_pos hv]; simp [hv]
    · rw [if_neg hv]; simp [hv]
  · rw [if_neg hw, if_neg hw]
    by_cases hv : v.x = 0
    · rw [if_pos hv, if_pos hv]; simp
    · rw [if_neg hv, if_neg hv, WithTop.coe_lt_coe]
      have hv' : f v.x ≠ 0 := fun h => hv ((hz _).1 h)
      have hw' : f w.x ≠ 0 := fun h => hw ((hz _).1 h)
      have lt1 : v.y * w.x < w.y * v.x ↔ f v.y * f w.x < f w.y * f v.x := by
        rw [← map_mul, ← map_mul, hf.lt_iff_lt]
      have lt2 : v.y * w.x > w.y * v.x ↔ f w.y * f v.x < f v.y * f w.x := by
        rw [← map_mul, ← map_mul, hf.lt_iff_lt]
      rcases lt_or_gt_of_ne hv' with h1 | h1 <;> rcases lt_or_gt_of_ne hw' with h2 | h2
      · rw [if_pos (by rw [decide_eq_decide, hneg, hneg]; exact ⟨fun _ => h2, fun _ => h1⟩), decide_eq_true_eq, lt1]
        rw [div_lt_iff_of_neg h1, div_mul_eq_mul_div, div_lt_iff_of_neg h2]
      · rw [if_neg (by rw [decide_eq_decide, hneg, hneg]; exact fun h => absurd (h.1 h1) h2.not_gt), decide_eq_true_eq, lt2]
        rw [div_lt_iff_of_neg h1, div_mul_eq_mul_div, div_lt_iff₀ h2]
      · rw [if_neg (by rw [decide_eq_decide, hneg, hneg]; exact fun h => absurd (h.2 h2) h1.not_gt), decide_eq_true_eq, lt2]
        rw [div_lt_iff₀ h1, div_mul_eq_mul_div, lt_div_iff_of_neg h2]
      · rw [if_pos (by rw [decide_eq_decide, hneg, hneg]; exact ⟨fun h => absurd h h1.not_gt, fun h => absurd h h2.not_gt⟩),
          decide_eq_true_eq, lt1]
        rw [div_lt_iff₀ h1, div_mul_eq_mul_div, lt_div_iff₀ h2]

/-- `CompareSlope` is a strict weak order. -/
theorem compareSlope_strictWeakOrder (f : T →+* K) (hf : StrictMono f) :
    StrictWeakOrder {v : Vec T | v ≠ 0} compareSlope := by
  have hfalse : ∀ v w : Vec T, compareSlope v w = false ↔ slope (w.map f) ≤ slope (v.map f) := by
    intro v w
    rw [← not_lt, ← compareSlope_correct f hf, Bool.not_eq_true]
  refine ⟨fun a _ => (hfalse a a).2 le_rfl, fun a _ b _ c _ h1 h2 => ?_, fun a _ b _ c _ h1 h2 h3 h4 => ?_⟩
  · rw [compareSlope_correct f hf] at *
    exact h1.trans h2
  · rw [hfalse] at h1 h2 h3 h4
    rw [hfalse, hfalse]
    exact ⟨h3.trans h1, h2.trans h4⟩

/-- Non-zero vectors have equivalent slope when they are collinear. -/
theorem compareSlope_equivalent (f : T →+* K) (hf : StrictMono f) {v w : Vec T} (hv : v ≠ 0) (hw : w ≠ 0) :
    (compareSlope v w = false ∧ compareSlope w v = false) ↔ cross v w = 0 := by
  rw [← Bool.not_eq_true, ← Bool.not_eq_true, compareSlope_correct f hf, compareSlope_correct f hf, not_lt, not_lt]
  have hz : ∀ t : T, f t = 0 ↔ t = 0 := fun t => by rw [← map_zero f, hf.injective.eq_iff]
  rw [and_comm, ← le_antisymm_iff]
  unfold slope map cross
  simp only [hz]
  by_cases hvx : v.x = 0 <;> by_cases hwx : w.x = 0
  · simp [hvx, hwx]
  · have : v.y ≠ 0 := fun h => hv (Vec.ext hvx h)
    simp [hvx, hwx, this]
  · have : w.y ≠ 0 := fun h => hw (Vec.ext hwx h)
    simp [hvx, hwx, this]
  · rw [if_neg hvx, if_neg hwx, WithTop.coe_inj, div_eq_div_iff (mt (hz _).1 hvx) (mt (hz _).1 hwx), ← map_mul, ← map_mul,
      hf.injective.eq_iff, sub_eq_zero]
    constructor
    · intro h; rw [h, mul_comm]
    · intro h; rw [← h, mul_comm]

/-- `CompareLength` compares lengths, whatever the enclosures used to approximate are. -/
theorem compareLength_correct (f : T →+* ℝ) (hf : StrictMono f) (A : Option (Approx T K)) (v w : Vec T) :
    compareLength A v w = true ↔ length (v.map f) < length (w.map f) := by
  rw [compareLength_eq, decide_eq_true_eq]
  unfold length map
  rw [Real.sqrt_lt_sqrt_iff (by positivity), ← hf.lt_iff_lt]
  unfold dot
  simp only [map_add, map_mul, sq]

/-- `CompareLength` is a strict weak order. -/
theorem compareLength_strictWeakOrder (A : Option (Approx T K)) :
    StrictWeakOrder Set.univ (compareLength (T := T) A) := by
  refine ⟨fun a _ => ?_, fun a _ b _ c _ h1 h2 => ?_, fun a _ b _ c _ h1 h2 h3 h4 => ?_⟩
  · rw [compareLength_eq, decide_eq_false_iff_not]
    exact lt_irrefl _
  · rw [compareLength_eq, decide_eq_true_eq] at *
    exact h1.trans h2
  · rw [compareLength_eq, decide_eq_false_iff_not, not_lt] at h1 h2 h3 h4
    rw [compareLength_eq, decide_eq_false_iff_not, not_lt, compareLength_eq, decide_eq_false_iff_not, not_lt]
    exact ⟨h3.trans h1, h2.trans h4⟩

/-- Vectors are equivalent when they have the same length. -/
theorem compareLength_equivalent (A : Option (Approx T K)) (v w : Vec T) :
    (compareLength A v w = false ∧ compareLength A w v = false) ↔ dot v v = dot w w := by
  rw [compareLength_eq, compareLength_eq, decide_eq_false_iff_not, decide_eq_false_iff_not, not_lt, not_lt, and_comm,
    ← le_antisymm_iff]

/-- The hypotheses are met by integers, which are rational numbers. -/
example : StrictMono (Int.castRingHom ℚ) ∧ (⟨1, 2⟩ : Vec ℤ) ≠ 0 ∧ (⟨-2, -4⟩ : Vec ℤ) ≠ 0 ∧
    cross (⟨1, 2⟩ : Vec ℤ) ⟨-2, -4⟩ = 0 :=
  ⟨fun a b h => by simpa using h, by decide, by decide, by decide⟩

end Verif.C16
