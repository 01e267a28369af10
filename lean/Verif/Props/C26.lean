import Verif.Model.QuadraticPolynomial
import Verif.Lemmas.Vector
import Mathlib.Algebra.Order.Ring.Rat
import Mathlib.Tactic.FieldSimp
import Mathlib.Tactic.NormNum
import Mathlib.Tactic.Linarith

/-!
# C26: positive decides positivity on [0, 1]

# C63: comparing quadratic polynomials compares their first roots
-/

set_option linter.unusedSectionVars false

namespace Verif.C26

open Quadratic

variable {T : Type*} [CommRing T] [LinearOrder T] [IsStrictOrderedRing T]
variable {K : Type*} [Field K] [LinearOrder K] [IsStrictOrderedRing K]

/-- The value of the polynomial at a number of the field `K`, where `f` says which number of `K` a coefficient is. -/
def value (f : T →+* K) (p : Quadratic T) (t : K) : K := f p.a * t ^ 2 + f p.b * t + f p.c

omit [LinearOrder K] [IsStrictOrderedRing T] [IsStrictOrderedRing K] in
/-- `operator()` evaluates the polynomial. -/
theorem eval_correct (f : T →+* K) (p : Quadratic T) (t : T) : f (p.eval t) = value f p (f t) := by
  unfold eval value
  split_ifs with h1 h2
  · rw [h1, map_zero]; ring
  · rw [h2, map_one, map_add, map_add]; ring
  · rw [map_add, map_add, map_mul, map_mul, map_mul]; ring

/-- `positive()` returns true if and only if the polynomial is positive for all `t` in `[0, 1]`. -/
theorem positive_correct (f : T →+* K) (hf : StrictMono f) (p : Quadratic T) :
    p.positive = true ↔ ∀ t : K, 0 ≤ t → t ≤ 1 → 0 < value f p t := by
  have hp : ∀ u : T, 0 < u ↔ 0 < f u := fun u => by rw [← map_zero f, hf.lt_iff_lt]
  have hn : ∀ u : T, u < 0 ↔ f u < 0 := fun u => by rw [← map_zero f, hf.lt_iff_lt]
  have hz : ∀ u : T, u = 0 ↔ f u = 0 := fun u => by rw [← map_zero f, hf.injective.eq_iff]
  have e0 : p.eval 0 = p.c := by simp [eval]
  have e1 : p.eval 1 = p.a + p.b + p.c := by simp [eval]
  have b1 : p.c > -p.b ↔ - f p.b < f p.c := by rw [gt_iff_lt, ← map_neg, hf.lt_iff_lt]
  have b2 : -p.b < 0 ↔ 0 < f p.b := by rw [neg_lt_zero, hp]
  have b3 : -p.b > 2 * p.a ↔ 2 * f p.a < - f p.b := by
    rw [gt_iff_lt, ← hf.lt_iff_lt, map_mul, map_neg, map_ofNat]
  have b4 : p.b * p.b - 4 * p.a * p.c < 0 ↔ f p.b * f p.b - 4 * f p.a * f p.c < 0 := by
    rw [hn, map_sub, map_mul, map_mul, map_mul, map_ofNat]
  have key : p.positive = true ↔ 0 < f p.c ∧ 0 < f p.a + f p.b + f p.c ∧
      ((f p.a = 0 ∧ (- f p.b < f p.c ∧ 0 < f p.c)) ∨ f p.a < 0 ∨
        (0 < f p.a ∧ (0 < f p.b ∨ 2 * f p.a < - f p.b ∨ f p.b * f p.b - 4 * f p.a * f p.c < 0))) := by
    unfold positive
    rw [e0, e1, ← b1, ← b2, ← b3, ← b4, ← map_add, ← map_add, ← hp, ← hp, ← hp, ← hn, ← hz]
    split_ifs with h1 h2 h3
    · simp only [false_iff]
      exact fun h => absurd h.1 (not_lt.2 h1)
    · simp only [true_iff]
      exact ⟨not_le.1 h1, h2, h3⟩
    · simp only [false_iff]
      exact fun h => h3 h.2.2
    · simp only [false_iff]
      exact fun h => h2 h.2.1
  rw [key]
  unfold value
  generalize f p.a = a
  generalize f p.b = b
  generalize f p.c = c
  constructor
  · rintro ⟨h0, h1, h⟩ t t0 t1
    have hconv : 0 ≤ t * (1 - t) := mul_nonneg t0 (by linarith)
    have hmix : 0 < c * (1 - t) + (a + b + c) * t := by
      rcases eq_or_lt_of_le t0 with h | h
      · rw [← h]; linarith
      · have := mul_pos h1 h
        have := mul_nonneg h0.le (by linarith : 0 ≤ 1 - t)
        linarith
    have hid : a * t ^ 2 + b * t + c = c * (1 - t) + (a + b + c) * t - a * (t * (1 - t)) := by ring
    rcases h with h | h | ⟨ha, h⟩
    · rw [hid, h.1]
      rw [h.1] at hmix
      linarith
    · rw [hid]
      have := mul_nonneg (neg_nonneg.2 h.le) hconv
      linarith
    · rcases h with h | h | h
      · have := mul_nonneg h.le t0
        have := mul_nonneg ha.le (sq_nonneg t)
        linarith
      · have h1 : a * t ^ 2 + b * t + c = (a + b + c) + (1 - t) * (-b - 2 * a) + a * (1 - t) ^ 2 := by ring
        rw [h1]
        have := mul_nonneg (by linarith : 0 ≤ 1 - t) (by linarith : 0 ≤ -b - 2 * a)
        have := mul_nonneg ha.le (sq_nonneg (1 - t))
        linarith
      · have h1 : 4 * a * (a * t ^ 2 + b * t + c) = (2 * a * t + b) ^ 2 - (b * b - 4 * a * c) := by ring
        have h2 : 0 < 4 * a * (a * t ^ 2 + b * t + c) := by
          rw [h1]
          have := sq_nonneg (2 * a * t + b)
          linarith
        exact (mul_pos_iff_of_pos_left (by linarith : (0 : K) < 4 * a)).1 h2
  · intro h
    have h0 := h 0 le_rfl zero_le_one
    have h1 := h 1 zero_le_one le_rfl
    have h0 : 0 < c := by simpa using h0
    have h1 : 0 < a + b + c := by simpa using h1
    refine ⟨h0, h1, ?_⟩
    rcases lt_trichotomy a 0 with ha | ha | ha
    · exact Or.inr (Or.inl ha)
    · exact Or.inl ⟨ha, by linarith, h0⟩
    · refine Or.inr (Or.inr ⟨ha, ?_⟩)
      by_contra hcon
      rw [not_or, not_or, not_lt, not_lt, not_lt] at hcon
      obtain ⟨g1, g2, g3⟩ := hcon
      have ha2 : (0 : K) < 2 * a := by linarith
      have h2 := h (-b / (2 * a)) (div_nonneg (by linarith) ha2.le) ((div_le_one ha2).2 g2)
      have h3 : 4 * a * (a * (-b / (2 * a)) ^ 2 + b * (-b / (2 * a)) + c) = -(b * b - 4 * a * c) := by
        field_simp
        ring
      have h4 := mul_pos (by linarith : (0 : K) < 4 * a) h2
      rw [h3] at h4
      linarith

/-- The hypotheses are met, by a polynomial whose minimum is at `1/2`. -/
example : StrictMono (Int.castRingHom ℚ) ∧ (⟨2, -2, 1⟩ : Quadratic ℤ).positive = true ∧
    (⟨4, -4, 1⟩ : Quadratic ℤ).positive = false :=
  ⟨fun a b h => by simpa using h, by decide, by decide⟩

/-! ### C63 -/

/-- The number `τ` is the first root of the polynomial in `[0, 1]`. -/
def FirstRoot (f : T →+* K) (p : Quadratic T) (τ : K) : Prop :=
  0 ≤ τ ∧ τ ≤ 1 ∧ value f p τ = 0 ∧ ∀ t, 0 ≤ t → t < τ → value f p t ≠ 0

/-- Not the zero polynomial. -/
def NonZero (p : Quadratic T) : Prop := p.a ≠ 0 ∨ p.b ≠ 0 ∨ p.c ≠ 0

theorem root_of_multiple (f : T →+* K) (hf : StrictMono f) {p q : Quadratic T} (hp : NonZero p)
    (h : p.a * q.b = p.b * q.a ∧ p.a * q.c = p.c * q.a ∧ p.b * q.c = p.c * q.b) {τ : K} (hτ : value f p τ = 0) :
    value f q τ = 0 := by
  have hz : ∀ u : T, f u = 0 → u = 0 := fun u hu => hf.injective (hu.trans (map_zero f).symm)
  obtain ⟨h1, h2, h3⟩ := h
  have h1 := congrArg f h1
  have h2 := congrArg f h2
  have h3 := congrArg f h3
  rw [map_mul, map_mul] at h1 h2 h3
  unfold value at *
  rcases hp with hp | hp | hp
  · have : f p.a * (f q.a * τ ^ 2 + f q.b * τ + f q.c) = 0 := by
      linear_combination τ * h1 + h2 + f q.a * hτ
    exact (mul_eq_zero.1 this).resolve_left fun h => hp (hz _ h)
  · have : f p.b * (f q.a * τ ^ 2 + f q.b * τ + f q.c) = 0 := by
      linear_combination -τ ^ 2 * h1 + h3 + f q.b * hτ
    exact (mul_eq_zero.1 this).resolve_left fun h => hp (hz _ h)
  · have : f p.c * (f q.a * τ ^ 2 + f q.b * τ + f q.c) = 0 := by
      linear_combination -τ ^ 2 * h2 - τ * h3 + f q.c * hτ
    exact (mul_eq_zero.1 this).resolve_left fun h => hp (hz _ h)

theorem FirstRoot.unique {f : T →+* K} {p : Quadratic T} {τ σ : K} (h1 : FirstRoot f p τ) (h2 : FirstRoot f p σ) :
    τ = σ := by
  rcases lt_trichotomy τ σ with h | h | h
  · exact absurd h1.2.2.1 (h2.2.2.2 τ h1.1 h)
  · exact h
  · exact absurd h2.2.2.1 (h1.2.2.2 σ h2.1 h)

theorem multiple (f : T →+* K) (hf : StrictMono f) {p q : Quadratic T} (hp : NonZero p) (hq : NonZero q)
    (h : p.a * q.b = p.b * q.a ∧ p.a * q.c = p.c * q.a ∧ p.b * q.c = p.c * q.b) {τ σ : K} (hτ : FirstRoot f p τ)
    (hσ : FirstRoot f q σ) : τ = σ := by
  refine FirstRoot.unique (p := q) ⟨hτ.1, hτ.2.1, root_of_multiple f hf hp h hτ.2.2.1, fun t h0 h1 hv => ?_⟩ hσ
  refine hτ.2.2.2 t h0 h1 (root_of_multiple f hf hq ?_ hv)
  exact ⟨by rw [mul_comm, ← h.1, mul_comm], by rw [mul_comm, ← h.2.1, mul_comm], by rw [mul_comm, ← h.2.2, mul_comm]⟩

theorem linear_root (f : T →+* K) (hf : StrictMono f) {p q : Quadratic T} (hp : NonZero p) (hq : NonZero q)
    (h : p.a = 0 ∧ q.a = 0) {τ σ : K} (hτ : FirstRoot f p τ) (hσ : FirstRoot f q σ) :
    p.c * q.b = q.c * p.b ↔ τ = σ := by
  have hz : ∀ u : T, f u = 0 → u = 0 := fun u hu => hf.injective (hu.trans (map_zero f).symm)
  have e1 := hτ.2.2.1
  have e2 := hσ.2.2.1
  unfold value at e1 e2
  rw [h.1, map_zero, zero_mul, zero_add] at e1
  rw [h.2, map_zero, zero_mul, zero_add] at e2
  have b1 : f p.b ≠ 0 := by
    intro hb
    rw [hb, zero_mul, zero_add] at e1
    rcases hp with hp | hp | hp
    · exact hp h.1
    · exact hp (hz _ hb)
    · exact hp (hz _ e1)
  have b2 : f q.b ≠ 0 := by
    intro hb
    rw [hb, zero_mul, zero_add] at e2
    rcases hq with hp | hp | hp
    · exact hp h.2
    · exact hp (hz _ hb)
    · exact hp (hz _ e2)
  rw [← hf.injective.eq_iff, map_mul, map_mul]
  constructor
  · intro h'
    have : f p.b * f q.b * (τ - σ) = 0 := by linear_combination f q.b * e1 - f p.b * e2 - h'
    exact sub_eq_zero.1 ((mul_eq_zero.1 this).resolve_left (mul_ne_zero b1 b2))
  · rintro rfl
    linear_combination f q.b * e1 - f p.b * e2

/-- C63, provided that the polynomials do not share a root other than their first roots (which is automatic when both are
linear): a result of `p < q` is right for all enclosures of the first roots. Missing: polynomials which do share such a
root, see `lt_wrong`. -/
theorem lt_correct_partial (f : T →+* K) (hf : StrictMono f) {p q : Quadratic T} (hp : NonZero p) (hq : NonZero q)
    {τ σ : K} (hτ : FirstRoot f p τ) (hσ : FirstRoot f q σ) {t s : ℕ → Ball K} (ht : ∀ n, (t n).Mem τ)
    (hs : ∀ n, (s n).Mem σ) (hres : resultant p q = 0 → τ = σ) {fuel : ℕ} {r : Bool}
    (h : Quadratic.lt p q t s fuel = some r) : r = decide (τ < σ) := by
  unfold Quadratic.lt at h
  split_ifs at h with hm
  · cases h
    rw [multiple f hf hp hq hm hτ hσ]
    simp
  · clear hm
    generalize 0 = prec at h
    induction fuel generalizing prec with
    | zero => cases h
    | succ fuel ih =>
      rw [ltAux] at h
      split at h
      · rename_i lt hlt
        cases h
        exact Ball.lt_sound (ht prec) (hs prec) hlt
      · split_ifs at h with h1 h2 h3
        · cases h
          rw [(linear_root f hf hp hq h1 hτ hσ).1 h2]
          simp
        · exact ih _ h
        · exact ih _ h
        · cases h
          rw [not_not] at h3
          rw [hres h3]
          simp

/-- The comparison of equal first roots terminates at the first precision, and if some precision separates the
enclosures, the comparison terminates. -/
theorem lt_terminates (f : T →+* K) (hf : StrictMono f) {p q : Quadratic T} (hp : NonZero p) (hq : NonZero q)
    {τ σ : K} (hτ : FirstRoot f p τ) (hσ : FirstRoot f q σ) {t s : ℕ → Ball K}
    (hsep : τ ≠ σ → ∃ n, (t n).lt (s n) ≠ none) : ∃ fuel r, Quadratic.lt p q t s fuel = some r := by
  unfold Quadratic.lt
  split_ifs with hm
  · exact ⟨0, false, rfl⟩
  by_cases heq : τ = σ
  · refine ⟨1, ?_⟩
    rw [ltAux]
    split
    · exact ⟨_, rfl⟩
    · split_ifs with h1 h2 h3
      · exact ⟨_, rfl⟩
      · exact absurd ((linear_root f hf hp hq h1 hτ hσ).2 heq) h2
      · refine absurd ?_ h3
        have e1 := hτ.2.2.1
        have e2 := hσ.2.2.1
        rw [← heq] at e2
        unfold value at e1 e2
        apply hf.injective
        rw [map_zero]
        unfold resultant
        simp only [map_add, map_sub, map_mul, map_ofNat]
        generalize f p.a = a at *
        generalize f p.b = b at *
        generalize f p.c = c at *
        generalize f q.a = a' at *
        generalize f q.b = b' at *
        generalize f q.c = c' at *
        have hc : c = -(a * τ ^ 2 + b * τ) := by linear_combination e1
        have hc' : c' = -(a' * τ ^ 2 + b' * τ) := by linear_combination e2
        rw [hc, hc']
        ring
      · exact ⟨_, rfl⟩
  · obtain ⟨n, hn⟩ := hsep heq
    have : ∀ k m, m + k = n → ∃ fuel r, ltAux p q t s fuel m = some r := by
      intro k
      induction k with
      | zero =>
        intro m hm
        refine ⟨1, ?_⟩
        rw [ltAux, show m = n by omega]
        cases h : (t n).lt (s n) with
        | none => exact absurd h hn
        | some r => exact ⟨r, rfl⟩
      | succ k ih =>
        intro m hm
        obtain ⟨fuel, r, h⟩ := ih (m + 1) (by omega)
        refine ⟨fuel + 1, ?_⟩
        rw [ltAux]
        split
        · exact ⟨_, rfl⟩
        · split_ifs
          · exact ⟨_, rfl⟩
          · exact ⟨r, h⟩
          · exact ⟨r, h⟩
          · exact ⟨_, rfl⟩
    exact this n 0 (by omega)

/-- The polynomials `(t + 1)(2t - 1)` and `(t + 1)(4t - 3)` share the root `-1`. -/
def p₀ : Quadratic ℤ := ⟨2, 1, -1⟩
def q₀ : Quadratic ℤ := ⟨4, 1, -3⟩

theorem p₀_root : FirstRoot (Int.castRingHom ℚ) p₀ (1 / 2) := by
  refine ⟨by norm_num, by norm_num, by norm_num [value, p₀], fun t h0 h1 h => ?_⟩
  have : (t + 1) * (2 * t - 1) = 0 := by
    simp only [value, p₀] at h
    simp only [eq_intCast] at h
    push_cast at h
    linear_combination h
  rcases mul_eq_zero.1 this with h | h <;> linarith

theorem q₀_root : FirstRoot (Int.castRingHom ℚ) q₀ (3 / 4) := by
  refine ⟨by norm_num, by norm_num, by norm_num [value, q₀], fun t h0 h1 h => ?_⟩
  have : (t + 1) * (4 * t - 3) = 0 := by
    simp only [value, q₀] at h
    simp only [eq_intCast] at h
    push_cast at h
    linear_combination h
  rcases mul_eq_zero.1 this with h | h <;> linarith

/-- C63 fails: the polynomials have first roots `1/2 < 3/4` but the comparison returns false when the enclosures of the
roots at the first precision overlap, since the polynomials share the root `-1`, however accurate later enclosures are. -/
theorem lt_wrong : ∃ (p q : Quadratic ℤ) (τ σ : ℚ) (t s : ℕ → Ball ℚ), NonZero p ∧ NonZero q ∧
    FirstRoot (Int.castRingHom ℚ) p τ ∧ FirstRoot (Int.castRingHom ℚ) q σ ∧ (∀ n, (t n).Mem τ) ∧ (∀ n, (s n).Mem σ) ∧
    (∀ n, 0 < n → t n = Ball.exact τ ∧ s n = Ball.exact σ) ∧ τ < σ ∧ Quadratic.lt p q t s 1 = some false := by
  refine ⟨p₀, q₀, 1 / 2, 3 / 4, fun n => if n = 0 then ⟨1 / 2, 1 / 2, by norm_num⟩ else Ball.exact (1 / 2),
    fun n => if n = 0 then ⟨1 / 2, 1 / 2, by norm_num⟩ else Ball.exact (3 / 4), Or.inl (by decide), Or.inl (by decide),
    p₀_root, q₀_root, fun n => ?_, fun n => ?_, fun n hn => ?_, by norm_num, ?_⟩
  · simp only
    split_ifs
    · norm_num [Ball.Mem]
    · exact Ball.mem_exact.2 rfl
  · simp only
    split_ifs
    · norm_num [Ball.Mem]
    · exact Ball.mem_exact.2 rfl
  · simp [hn.ne']
  · unfold Quadratic.lt
    rw [if_neg (by decide), ltAux]
    norm_num [Ball.lt]
    decide

/-- The hypotheses of `lt_correct_partial` are met: first roots `1/2` and `1` of `(t + 1)(2t - 1)` and `t - 1`. -/
example : ∃ (q : Quadratic ℤ), NonZero p₀ ∧ NonZero q ∧ FirstRoot (Int.castRingHom ℚ) p₀ (1 / 2) ∧
    FirstRoot (Int.castRingHom ℚ) q 1 ∧ resultant p₀ q ≠ 0 ∧
    Quadratic.lt p₀ q (fun _ => Ball.exact (1 / 2 : ℚ)) (fun _ => Ball.exact 1) 1 = some true := by
  refine ⟨⟨0, 1, -1⟩, Or.inl (by decide), Or.inr (Or.inl (by decide)), p₀_root,
    ⟨by norm_num, by norm_num, by norm_num [value], fun t h0 h1 h => ?_⟩, by decide, ?_⟩
  · simp only [value] at h
    simp only [eq_intCast] at h
    push_cast at h
    linarith
  · unfold Quadratic.lt
    rw [if_neg (by decide), ltAux]
    norm_num [Ball.lt, Ball.exact]

end Verif.C26
