import Verif.Spec.FlowAnswers
import Verif.Lemmas.Vector
import Mathlib.Tactic.FieldSimp
import Mathlib.Tactic.Linarith
import Mathlib.Tactic.Positivity
import Mathlib.LinearAlgebra.LinearIndependent.Lemmas

/-!
# The answers of flow decompositions
-/

namespace Verif.FlowPiece

open Spec

set_option linter.unusedSectionVars false

variable {T : Type} [CommRing T] [LinearOrder T]

theorem Commensurable.symm {x y : ℝ} (h : Commensurable x y) : Commensurable y x := by
  obtain ⟨p, q, hp, hq, h⟩ := h
  exact ⟨q, p, hq, hp, h.symm⟩

theorem Commensurable.trans {x y z : ℝ} (h : Commensurable x y) (h' : Commensurable y z) : Commensurable x z := by
  obtain ⟨p, q, hp, hq, h⟩ := h
  obtain ⟨r, s, hr, hs, h'⟩ := h'
  refine ⟨p * r, q * s, mul_ne_zero hp hr, mul_ne_zero hq hs, ?_⟩
  push_cast
  linear_combination (r : ℝ) * h + (q : ℝ) * h'

theorem commensurable_mul {x y c : ℝ} (hc : c ≠ 0) : Commensurable (x * c) (y * c) ↔ Commensurable x y := by
  constructor
  · rintro ⟨p, q, hp, hq, h⟩
    refine ⟨p, q, hp, hq, mul_right_cancel₀ hc ?_⟩
    linear_combination h
  · rintro ⟨p, q, hp, hq, h⟩
    refine ⟨p, q, hp, hq, ?_⟩
    linear_combination c * h

theorem commensurable_rat {x y : ℝ} {p q : ℚ} (hp : p ≠ 0) (hq : q ≠ 0) (h : (p : ℝ) * x = q * y) : Commensurable x y := by
  refine ⟨p.num * q.den, q.num * p.den, ?_, ?_, ?_⟩
  · simp [hp]
  · simp [hq]
  · have a : (p : ℝ) * p.den = p.num := by exact_mod_cast Rat.mul_den_eq_num p
    have b : (q : ℝ) * q.den = q.num := by exact_mod_cast Rat.mul_den_eq_num q
    push_cast
    rw [← a, ← b]
    linear_combination (p.den : ℝ) * q.den * h

theorem firstNonzero_zero (u v : List ℚ) (i : ℕ) (hi : i < firstNonzero u v) : u.getD i 0 = 0 ∧ v.getD i 0 = 0 := by
  induction u generalizing v i with
  | nil => simp [firstNonzero] at hi
  | cons a u ih =>
    cases v with
    | nil => simp [firstNonzero] at hi
    | cons b v =>
      unfold firstNonzero at hi
      split_ifs at hi with h
      · cases i with
        | zero => simpa using h
        | succ i => simpa using ih v i (by omega)
      · omega

theorem firstNonzero_pivot (u v : List ℚ) (hl : u.length = v.length) :
    (u.getD (firstNonzero u v) 0 = 0 ∧ v.getD (firstNonzero u v) 0 = 0) → ∀ i, u.getD i 0 = 0 ∧ v.getD i 0 = 0 := by
  induction u generalizing v with
  | nil =>
    have : v = [] := by simpa using hl.symm
    subst this
    simp
  | cons a u ih =>
    cases v with
    | nil => simp at hl
    | cons b v =>
      unfold firstNonzero
      split_ifs with h
      · intro hz i
        cases i with
        | zero => simpa using h
        | succ i => simpa using ih v (by simpa using hl) (by simpa using hz) i
      · intro hz
        exact absurd (by simpa using hz) h

/-- What the comparison of the coefficients decides. -/
theorem proportional_iff {f : T →+* ℝ} {co : T → T → List ℚ × List ℚ} (h : IsCoefficients f co) {x y : T} (hx : f x ≠ 0)
    (hy : f y ≠ 0) : proportional (co x y).1 (co x y).2 = true ↔ Commensurable (f x) (f y) := by
  obtain ⟨n, b, hb, hu, hv, ex, ey⟩ := h x y
  generalize (co x y).1 = u at *
  generalize (co x y).2 = v at *
  unfold proportional
  simp only [List.all_eq_true, List.mem_range, Bool.or_eq_true, decide_eq_true_eq]
  set k := firstNonzero u v with hk
  constructor
  · intro hp
    have key : ∀ i < n, u.getD k 0 * v.getD i 0 = u.getD i 0 * v.getD k 0 := by
      intro i hi
      rcases lt_trichotomy i k with h1 | h1 | h1
      · obtain ⟨a, b⟩ := firstNonzero_zero u v i h1
        rw [a, b]; ring
      · rw [h1]
      · rcases hp i (by omega) with h2 | h2
        · omega
        · exact h2
    have hsum : ((v.getD k 0 : ℚ) : ℝ) * f x = ((u.getD k 0 : ℚ) : ℝ) * f y := by
      rw [ex, ey, Finset.mul_sum, Finset.mul_sum]
      refine Finset.sum_congr rfl fun i _ => ?_
      have := key i i.2
      have : ((u.getD k 0 : ℚ) : ℝ) * ((v.getD i 0 : ℚ) : ℝ) = ((u.getD i 0 : ℚ) : ℝ) * ((v.getD k 0 : ℚ) : ℝ) := by
        exact_mod_cast this
      linear_combination -(b i) * this
    have hnz : ¬ (u.getD k 0 = 0 ∧ v.getD k 0 = 0) := by
      intro hz
      have := firstNonzero_pivot u v (by omega) hz
      apply hx
      rw [ex]
      refine Finset.sum_eq_zero fun i _ => ?_
      rw [(this i).1]; simp
    have hv0 : v.getD k 0 ≠ 0 := by
      intro hz
      rw [hz] at hsum
      have h1 : u.getD k 0 ≠ 0 := fun h => hnz ⟨h, hz⟩
      have h2 : ((u.getD k 0 : ℚ) : ℝ) ≠ 0 := by exact_mod_cast h1
      simp only [Rat.cast_zero, zero_mul] at hsum
      rcases mul_eq_zero.1 hsum.symm with h3 | h3
      · exact h2 h3
      · exact hy h3
    have hu0 : u.getD k 0 ≠ 0 := by
      intro hz
      rw [hz] at hsum
      have h2 : ((v.getD k 0 : ℚ) : ℝ) ≠ 0 := by exact_mod_cast hv0
      simp only [Rat.cast_zero, zero_mul] at hsum
      rcases mul_eq_zero.1 hsum with h3 | h3
      · exact h2 h3
      · exact hx h3
    exact commensurable_rat hv0 hu0 hsum
  · rintro ⟨p, q, hp, hq, hpq⟩ i hi
    right
    have hlin : ∑ i : Fin n, ((p : ℚ) * u.getD i 0 - q * v.getD i 0) • b i = 0 := by
      rw [ex, ey, Finset.mul_sum, Finset.mul_sum] at hpq
      rw [← sub_eq_zero, ← Finset.sum_sub_distrib] at hpq
      rw [← hpq]
      refine Finset.sum_congr rfl fun i _ => ?_
      rw [Rat.smul_def]
      push_cast
      ring
    have hz := Fintype.linearIndependent_iff.1 hb _ hlin
    have key : ∀ j, (p : ℚ) * u.getD j 0 = q * v.getD j 0 := by
      intro j
      by_cases hj : j < n
      · have := hz ⟨j, hj⟩
        simpa [sub_eq_zero] using this
      · have h1 : u.getD j 0 = 0 := by
          rw [List.getD_eq_getElem?_getD, List.getElem?_eq_none (by omega)]; rfl
        have h2 : v.getD j 0 = 0 := by
          rw [List.getD_eq_getElem?_getD, List.getElem?_eq_none (by omega)]; rfl
        rw [h1, h2]; simp
    have hp' : (p : ℚ) ≠ 0 := by exact_mod_cast hp
    apply mul_left_cancel₀ hp'
    linear_combination v.getD i 0 * key k - v.getD k 0 * key i

variable [IsStrictOrderedRing T]

/-- The square of the length of the holonomy. -/
def norm2 (c : FlowPiece T) : T := c.holonomy0.x * c.holonomy0.x + c.holonomy0.y * c.holonomy0.y

theorem norm2_pos {c : FlowPiece T} (h : c.holonomy0 ≠ 0) : 0 < c.norm2 := by
  unfold norm2
  rcases lt_or_eq_of_le (mul_self_nonneg c.holonomy0.x) with h1 | h1
  · have := mul_self_nonneg c.holonomy0.y
    linarith
  · rcases lt_or_eq_of_le (mul_self_nonneg c.holonomy0.y) with h2 | h2
    · linarith
    · exact absurd (Vec.ext (mul_self_eq_zero.1 h1.symm) (mul_self_eq_zero.1 h2.symm)) h

theorem map_pos {f : T →+* ℝ} (hf : StrictMono f) {x : T} (h : 0 < x) : 0 < f x := by
  have := hf h
  rwa [map_zero] at this

theorem modulus_eq (f : T →+* ℝ) (c : FlowPiece T) : modulus f c = f c.area2 / f c.norm2 := by
  unfold modulus norm2
  rw [map_add, map_mul, map_mul, sq, sq]

theorem modulus_pos {f : T →+* ℝ} (hf : StrictMono f) {c : FlowPiece T} (h : 0 < c.area2 ∧ c.holonomy0 ≠ 0) :
    0 < modulus f c := by
  rw [modulus_eq]
  exact div_pos (map_pos hf h.1) (map_pos hf (norm2_pos h.2))

theorem commensurable_modulus {f : T →+* ℝ} (hf : StrictMono f) {c d : FlowPiece T} (hc : 0 < c.area2 ∧ c.holonomy0 ≠ 0)
    (hd : 0 < d.area2 ∧ d.holonomy0 ≠ 0) :
    Commensurable (f (c.area2 * d.norm2)) (f (d.area2 * c.norm2)) ↔ Commensurable (modulus f c) (modulus f d) := by
  have h1 := (map_pos hf (norm2_pos hc.2)).ne'
  have h2 := (map_pos hf (norm2_pos hd.2)).ne'
  rw [← commensurable_mul (x := modulus f c) (y := modulus f d) (mul_ne_zero h1 h2), modulus_eq, modulus_eq, map_mul, map_mul]
  have e1 : f c.area2 / f c.norm2 * (f c.norm2 * f d.norm2) = f c.area2 * f d.norm2 := by field_simp
  have e2 : f d.area2 / f d.norm2 * (f c.norm2 * f d.norm2) = f d.area2 * f c.norm2 := by field_simp
  rw [e1, e2]

/-- The loop in `parabolic()`. -/
theorem parabolicLoop_eq {f : T →+* ℝ} (hf : StrictMono f) {co : T → T → List ℚ × List ℚ} (h : IsCoefficients f co)
    {d : FlowPiece T} (hd : 0 < d.area2 ∧ d.holonomy0 ≠ 0) (l : List (FlowPiece T)) (hl : Proper l) (ans : Option Bool)
    (ha : ans ≠ some false) :
    ((∀ c ∈ l, c.cylinder ≠ some false ∧ Commensurable (modulus f d) (modulus f c)) →
      parabolicLoop co l d.area2 d.norm2 ans = .ok (if ans = some true ∧ ∀ c ∈ l, c.cylinder = some true then some true else none)) ∧
    ((∃ c ∈ l, c.cylinder = some false ∨ ¬ Commensurable (modulus f d) (modulus f c)) →
      parabolicLoop co l d.area2 d.norm2 ans = .ok (some false)) := by
  induction l generalizing ans with
  | nil =>
    constructor
    · intro _
      unfold parabolicLoop
      rcases ans with _ | _ | _ <;> simp_all
    · rintro ⟨c, hc, -⟩
      simp at hc
  | cons c l ih =>
    have hc := hl c (by simp)
    have hl' : Proper l := fun x hx => hl x (by simp [hx])
    have h0 : d.norm2 ≠ 0 := (norm2_pos hd.2).ne'
    unfold parabolicLoop
    by_cases hcy : c.cylinder = some false
    · rw [if_pos (by rw [hcy]; rfl)]
      exact ⟨fun hg => absurd hcy (hg c (by simp)).1, fun _ => rfl⟩
    · have e1 : Tribool.isTrue (Tribool.eq c.cylinder (some false)) = false := by
        rcases hx : c.cylinder with _ | _ | _
        · rfl
        · exact absurd hx hcy
        · rfl
      have e2 : c.circumferenceHolonomy = .ok c.holonomy0 := by
        unfold circumferenceHolonomy
        rcases hx : c.cylinder with _ | _ | _
        · rfl
        · exact absurd hx hcy
        · rfl
      have e3 : proportional (co (d.area2 * c.norm2) (c.area2 * d.norm2)).1 (co (d.area2 * c.norm2) (c.area2 * d.norm2)).2 =
          true ↔ Commensurable (modulus f d) (modulus f c) := by
        rw [← commensurable_modulus hf hd hc]
        exact proportional_iff h (map_pos hf (mul_pos hd.1 (norm2_pos hc.2))).ne' (map_pos hf (mul_pos hc.1 (norm2_pos hd.2))).ne'
      have e4 : c.holonomy0.x * c.holonomy0.x + c.holonomy0.y * c.holonomy0.y = c.norm2 := rfl
      have e5 : Tribool.and ans c.cylinder ≠ some false := by
        rcases hx : c.cylinder with _ | _ | _ <;> rcases ans with _ | _ | _ <;> simp_all [Tribool.and]
      have e6 : Tribool.and ans c.cylinder = some true ↔ ans = some true ∧ c.cylinder = some true := by
        rcases hx : c.cylinder with _ | _ | _ <;> rcases ans with _ | _ | _ <;> simp_all [Tribool.and]
      simp only [e1, Bool.false_eq_true, if_false, e2, bind, Except.bind, h0, e4, pure, Except.pure]
      obtain ⟨i1, i2⟩ := ih hl' _ e5
      by_cases hcm : Commensurable (modulus f d) (modulus f c)
      · simp only [e3.2 hcm, if_true]
        constructor
        · intro hg
          rw [i1 fun x hx => hg x (by simp [hx])]
          congr 2
          simp [e6, and_assoc]
        · rintro ⟨x, hx, hx'⟩
          rcases List.mem_cons.1 hx with rfl | hx
          · rcases hx' with hx' | hx'
            · exact absurd hx' hcy
            · exact absurd hcm hx'
          · exact i2 ⟨x, hx, hx'⟩
      · rw [if_neg (fun hp => hcm (e3.1 hp))]
        exact ⟨fun hg => absurd (hg c (by simp)).2 hcm, fun _ => rfl⟩

/-- What `parabolic()` computes. -/
theorem parabolic_eq {f : T →+* ℝ} (hf : StrictMono f) {co : T → T → List ℚ × List ℚ} (h : IsCoefficients f co)
    {l : List (FlowPiece T)} (hl : Proper l) :
    ((∀ c ∈ l, c.cylinder ≠ some false) ∧ (∀ c ∈ l, ∀ d ∈ l, Commensurable (modulus f c) (modulus f d)) →
      (∀ c ∈ l, c.cylinder = some true) → parabolic co l = .ok (some true)) ∧
    ((∀ c ∈ l, c.cylinder ≠ some false) ∧ (∀ c ∈ l, ∀ d ∈ l, Commensurable (modulus f c) (modulus f d)) →
      (∃ c ∈ l, c.cylinder = none) → parabolic co l = .ok none) ∧
    ((∃ c ∈ l, c.cylinder = some false) ∨ (∃ c ∈ l, ∃ d ∈ l, ¬ Commensurable (modulus f c) (modulus f d)) →
      parabolic co l = .ok (some false)) := by
  cases l with
  | nil => exact ⟨fun _ _ => rfl, fun _ ⟨c, hc, _⟩ => by simp at hc, fun h => by simp at h⟩
  | cons d l =>
    have hd := hl d (by simp)
    have hl' : Proper l := fun x hx => hl x (by simp [hx])
    unfold parabolic parabolicLoop
    by_cases hcy : d.cylinder = some false
    · rw [if_pos (by rw [hcy]; rfl)]
      exact ⟨fun hg => absurd hcy (hg.1 d (by simp)), fun hg => absurd hcy (hg.1 d (by simp)), fun _ => rfl⟩
    · have e1 : Tribool.isTrue (Tribool.eq d.cylinder (some false)) = false := by
        rcases hx : d.cylinder with _ | _ | _
        · rfl
        · exact absurd hx hcy
        · rfl
      have e2 : d.circumferenceHolonomy = .ok d.holonomy0 := by
        unfold circumferenceHolonomy
        rcases hx : d.cylinder with _ | _ | _
        · rfl
        · exact absurd hx hcy
        · rfl
      have e4 : d.holonomy0.x * d.holonomy0.x + d.holonomy0.y * d.holonomy0.y = d.norm2 := rfl
      have e5 : Tribool.and (some true) d.cylinder = d.cylinder := by
        rcases hx : d.cylinder with _ | _ | _ <;> rfl
      simp only [e1, Bool.false_eq_true, if_false, e2, bind, Except.bind, if_true, e4, e5]
      obtain ⟨i1, i2⟩ := parabolicLoop_eq hf h hd l hl' d.cylinder hcy
      refine ⟨fun hg ht => ?_, fun hg ⟨x, hx, hx'⟩ => ?_, fun hg => i2 ?_⟩
      · rw [i1 fun c hc => ⟨hg.1 c (by simp [hc]), hg.2 d (by simp) c (by simp [hc])⟩,
          if_pos ⟨ht d (by simp), fun c hc => ht c (by simp [hc])⟩]
      · rw [i1 fun c hc => ⟨hg.1 c (by simp [hc]), hg.2 d (by simp) c (by simp [hc])⟩, if_neg]
        rintro ⟨h1, h2⟩
        rcases List.mem_cons.1 hx with rfl | hx
        · rw [h1] at hx'; cases hx'
        · rw [h2 x hx] at hx'; cases hx'
      · rcases hg with ⟨c, hc, hc'⟩ | ⟨c, hc, c', hc', hn⟩
        · rcases List.mem_cons.1 hc with rfl | hc
          · exact absurd hc' hcy
          · exact ⟨c, hc, .inl hc'⟩
        · by_contra hall
          simp only [not_exists, not_and, not_or, not_not] at hall
          have all : ∀ x ∈ d :: l, Commensurable (modulus f d) (modulus f x) := by
            intro x hx
            rcases List.mem_cons.1 hx with rfl | hx
            · exact ⟨1, 1, one_ne_zero, one_ne_zero, rfl⟩
            · exact (hall x hx).2
          exact hn (Commensurable.trans (Commensurable.symm (all c hc)) (all c' hc'))

end Verif.FlowPiece
