import Verif.Lemmas.FlowAnswers
import Mathlib.NumberTheory.Zsqrtd.ToReal
import Mathlib.NumberTheory.Real.Irrational

/-!
# C47: three-valued answers of a flow decomposition are sound

Here, for `hasCylinder()` and for the answer `true` of `parabolic()`. For `completelyPeriodic()` see `C79`, for the answer
`false` of `parabolic()` see `C80`.
-/

namespace Verif.C47

open Verif Spec FlowPiece

set_option linter.unusedSectionVars false

variable {T : Type} [CommRing T] [LinearOrder T] [IsStrictOrderedRing T]

theorem hasCylinderLoop_eq (l : List (FlowPiece T)) (s : Option Bool) (hs : s ≠ some true) :
    ((∃ c ∈ l, c.cylinder = some true) → hasCylinderLoop l s = some true) ∧
    ((∀ c ∈ l, c.cylinder ≠ some true) → hasCylinderLoop l s =
      if s = some false ∧ ∀ c ∈ l, c.cylinder = some false then some false else none) := by
  induction l generalizing s with
  | nil =>
    unfold hasCylinderLoop
    rcases s with _ | _ | _ <;> simp_all
  | cons c l ih =>
    unfold hasCylinderLoop
    rcases hc : c.cylinder with _ | _ | _
    · have e : Tribool.or s none = none := by rcases s with _ | _ | _ <;> simp_all [Tribool.or]
      obtain ⟨i1, i2⟩ := ih none (by simp)
      simp only [e, show Tribool.isTrue none = false from rfl, Bool.false_eq_true, if_false, List.mem_cons, forall_eq_or_imp,
        exists_eq_or_imp, hc]
      refine ⟨fun h => i1 (by simpa using h), fun h => ?_⟩
      rw [i2 h.2]
      simp
    · have e : Tribool.or s (some false) = s := by rcases s with _ | _ | _ <;> simp_all [Tribool.or]
      obtain ⟨i1, i2⟩ := ih s hs
      have e' : Tribool.isTrue s = false := by rcases s with _ | _ | _ <;> simp_all [Tribool.isTrue]
      simp only [e, e', Bool.false_eq_true, if_false, List.mem_cons, forall_eq_or_imp, exists_eq_or_imp, hc]
      refine ⟨fun h => i1 (by simpa using h), fun h => ?_⟩
      rw [i2 h.2]
      simp
    · have e : Tribool.or s (some true) = some true := by rcases s with _ | _ | _ <;> simp_all [Tribool.or]
      simp [e, hc, Tribool.isTrue]

/-- `hasCylinder()` is `true` exactly if some component is known to be a cylinder. -/
theorem hasCylinder_true {l : List (FlowPiece T)} : hasCylinder l = some true ↔ ∃ c ∈ l, c.cylinder = some true := by
  obtain ⟨h1, h2⟩ := hasCylinderLoop_eq l (some false) (by simp)
  refine ⟨fun h => ?_, h1⟩
  by_contra hn
  have := h2 fun c hc hx => hn ⟨c, hc, hx⟩
  unfold hasCylinder at h
  rw [this] at h
  split_ifs at h
  cases h

/-- `hasCylinder()` is `false` exactly if all components are known not to be cylinders. -/
theorem hasCylinder_false {l : List (FlowPiece T)} : hasCylinder l = some false ↔ ∀ c ∈ l, c.cylinder = some false := by
  obtain ⟨h1, h2⟩ := hasCylinderLoop_eq l (some false) (by simp)
  unfold hasCylinder
  by_cases hc : ∃ c ∈ l, c.cylinder = some true
  · rw [h1 hc]
    refine ⟨fun h => (by cases h), fun h => ?_⟩
    obtain ⟨c, hc, hx⟩ := hc
    rw [h c hc] at hx
    cases hx
  · rw [h2 fun c hc' hx => hc ⟨c, hc', hx⟩]
    split_ifs with h
    · exact ⟨fun _ => h.2, fun _ => rfl⟩
    · exact ⟨fun h => (by cases h), fun h' => absurd ⟨rfl, h'⟩ h⟩

theorem mem_of_further {l l' : List (FlowPiece T)} (h : FurtherDecomposed l l') {c : FlowPiece T} (hc : c ∈ l)
    (hd : c.cylinder ≠ none) : c ∈ l' := by
  obtain ⟨ls, h1, h2⟩ := h
  rw [h1.mem_iff]
  clear h1
  induction h2 with
  | nil => simp at hc
  | cons h _ ih =>
    rcases List.mem_cons.1 hc with rfl | hc
    · simp [h.1 hd]
    · simp only [List.flatten_cons, List.mem_append]
      exact .inr (ih hc)

theorem perm_of_further {l l' : List (FlowPiece T)} (h : FurtherDecomposed l l') (hd : Determined l) : l'.Perm l := by
  obtain ⟨ls, h1, h2⟩ := h
  refine h1.trans ?_
  clear h1
  induction h2 with
  | nil => simp
  | @cons a b l₁ l₂ h _ ih =>
    rw [h.1 (hd _ (by simp))]
    simpa using ih fun c hc => hd c (by simp [hc])

/-- A definite answer of `hasCylinder()` does not change when the surface is decomposed further. -/
theorem hasCylinder_stable {l l' : List (FlowPiece T)} (h : FurtherDecomposed l l') {b : Bool}
    (hb : hasCylinder l = some b) : hasCylinder l' = some b := by
  cases b with
  | true =>
    rw [hasCylinder_true] at hb ⊢
    obtain ⟨c, hc, hx⟩ := hb
    exact ⟨c, mem_of_further h hc (by simp [hx]), hx⟩
  | false =>
    rw [hasCylinder_false] at hb ⊢
    have hp := perm_of_further h fun c hc => by simp [hb c hc]
    intro c hc
    exact hb c (hp.mem_iff.1 hc)

/-- There is an answer once it is known of each component whether it is a cylinder. -/
theorem hasCylinder_determined {l : List (FlowPiece T)} (h : Determined l) : ∃ b, hasCylinder l = some b := by
  by_cases hc : ∃ c ∈ l, c.cylinder = some true
  · exact ⟨true, hasCylinder_true.2 hc⟩
  · refine ⟨false, hasCylinder_false.2 fun c hc' => ?_⟩
    rcases hx : c.cylinder with _ | _ | _
    · exact absurd hx (h c hc')
    · rfl
    · exact absurd ⟨c, hc', hx⟩ hc

example : hasCylinder [(⟨none, ⟨1, 0⟩, 1⟩ : FlowPiece ℤ), ⟨some true, ⟨1, 0⟩, 1⟩] = some true ∧
    hasCylinder [(⟨none, ⟨1, 0⟩, 1⟩ : FlowPiece ℤ), ⟨some false, ⟨1, 0⟩, 1⟩] = none ∧
    FurtherDecomposed [(⟨none, ⟨1, 0⟩, 3⟩ : FlowPiece ℤ), ⟨some false, ⟨1, 0⟩, 1⟩]
      [⟨some true, ⟨1, 0⟩, 1⟩, ⟨some false, ⟨1, 0⟩, 1⟩, ⟨some false, ⟨1, 0⟩, 2⟩] := by
  refine ⟨by decide, by decide, [[⟨some true, ⟨1, 0⟩, 1⟩, ⟨some false, ⟨1, 0⟩, 2⟩], [⟨some false, ⟨1, 0⟩, 1⟩]], ?_, ?_⟩
  · exact List.Perm.cons _ (List.Perm.swap _ _ _)
  · exact .cons ⟨fun h => absurd rfl h, by simp, by simp⟩ (.cons ⟨fun _ => rfl, by simp, by simp⟩ .nil)

/-- `parabolic()` always returns. (It does not ask for the circumference of a component that is not a cylinder.) -/
theorem parabolic_returns {f : T →+* ℝ} (hf : StrictMono f) {co : T → T → List ℚ × List ℚ} (h : IsCoefficients f co)
    {l : List (FlowPiece T)} (hl : Proper l) : ∃ r, parabolic co l = .ok r := by
  obtain ⟨h1, h2, h3⟩ := parabolic_eq hf h hl
  by_cases hf' : (∃ c ∈ l, c.cylinder = some false) ∨ (∃ c ∈ l, ∃ d ∈ l, ¬ Commensurable (modulus f c) (modulus f d))
  · exact ⟨_, h3 hf'⟩
  · simp only [not_or, not_exists, not_and, not_not] at hf'
    by_cases hn : ∃ c ∈ l, c.cylinder = none
    · exact ⟨_, h2 hf' hn⟩
    · refine ⟨_, h1 hf' fun c hc => ?_⟩
      rcases hx : c.cylinder with _ | _ | _
      · exact absurd ⟨c, hc, hx⟩ hn
      · exact absurd hx (hf'.1 c hc)
      · rfl

/-- `parabolic()` is `true` exactly if all components are cylinders and their moduli are commensurable. -/
theorem parabolic_true {f : T →+* ℝ} (hf : StrictMono f) {co : T → T → List ℚ × List ℚ} (h : IsCoefficients f co)
    {l : List (FlowPiece T)} (hl : Proper l) : parabolic co l = .ok (some true) ↔ Parabolic f l := by
  obtain ⟨h1, h2, h3⟩ := parabolic_eq hf h hl
  constructor
  · intro hp
    by_cases hf' : (∃ c ∈ l, c.cylinder = some false) ∨ (∃ c ∈ l, ∃ d ∈ l, ¬ Commensurable (modulus f c) (modulus f d))
    · rw [h3 hf'] at hp
      cases hp
    · simp only [not_or, not_exists, not_and, not_not] at hf'
      refine ⟨fun c hc => ?_, hf'.2⟩
      rcases hx : c.cylinder with _ | _ | _
      · rw [h2 hf' ⟨c, hc, hx⟩] at hp
        cases hp
      · exact absurd hx (hf'.1 c hc)
      · rfl
  · rintro ⟨g1, g2⟩
    exact h1 ⟨fun c hc => by simp [g1 c hc], g2⟩ g1

/-- Once it is known of each component whether it is a cylinder, `parabolic()` decides whether all components are cylinders
and their moduli are commensurable. -/
theorem parabolic_determined {f : T →+* ℝ} (hf : StrictMono f) {co : T → T → List ℚ × List ℚ} (h : IsCoefficients f co)
    {l : List (FlowPiece T)} (hl : Proper l) (hd : Determined l) :
    parabolic co l = .ok (some true) ∧ Parabolic f l ∨ parabolic co l = .ok (some false) ∧ ¬ Parabolic f l := by
  by_cases hp : Parabolic f l
  · exact .inl ⟨(parabolic_true hf h hl).2 hp, hp⟩
  · refine .inr ⟨(parabolic_eq hf h hl).2.2 ?_, hp⟩
    by_contra hn
    simp only [not_or, not_exists, not_and, not_not] at hn
    refine hp ⟨fun c hc => ?_, hn.2⟩
    rcases hx : c.cylinder with _ | _ | _
    · exact absurd hx (hd c hc)
    · exact absurd hx (hn.1 c hc)
    · rfl

/-- The answer `true` of `parabolic()` does not change when the surface is decomposed further. -/
theorem parabolic_true_stable {f : T →+* ℝ} (hf : StrictMono f) {co : T → T → List ℚ × List ℚ} (h : IsCoefficients f co)
    {l l' : List (FlowPiece T)} (hl : Proper l) (hp : parabolic co l = .ok (some true)) (hd : FurtherDecomposed l l') :
    parabolic co l' = .ok (some true) := by
  rw [parabolic_true hf h hl] at hp
  have hperm := perm_of_further hd fun c hc => by simp [hp.1 c hc]
  have hl' : Proper l' := fun c hc => hl c (hperm.mem_iff.1 hc)
  rw [parabolic_true hf h hl']
  exact ⟨fun c hc => hp.1 c (hperm.mem_iff.1 hc), fun c hc d hd => hp.2 c (hperm.mem_iff.1 hc) d (hperm.mem_iff.1 hd)⟩

/-! ### An example with coordinates in ℤ[√2] -/

instance : Zsqrtd.Nonsquare 2 := ⟨by
  intro n h
  have : n < 2 := by nlinarith
  interval_cases n <;> omega⟩

/-- The elements of ℤ[√2]. -/
abbrev R := ℤ√(2 : ℕ)

/-- The embedding in the reals. -/
noncomputable def emb : R →+* ℝ := Zsqrtd.toReal (d := ((2 : ℕ) : ℤ)) (by decide)

theorem emb_def (x : R) : emb x = x.re + x.im * √2 := by
  unfold emb
  simp [Zsqrtd.toReal, Zsqrtd.lift_apply_apply]

/-- The coefficients of an element with respect to 1 and √2. -/
def co (x y : R) : List ℚ × List ℚ := ([(x.re : ℚ), x.im], [(y.re : ℚ), y.im])

theorem independent {p q : ℚ} (h : (p : ℝ) + q * √2 = 0) : p = 0 ∧ q = 0 := by
  have hq : q = 0 := by
    by_contra hq
    have : √2 = ((-p / q : ℚ) : ℝ) := by
      have : (q : ℝ) ≠ 0 := by exact_mod_cast hq
      push_cast
      field_simp
      linarith
    exact irrational_sqrt_two ⟨_, this.symm⟩
  subst hq
  refine ⟨?_, rfl⟩
  simpa using h

theorem co_isCoefficients : IsCoefficients emb co := by
  intro x y
  refine ⟨2, ![1, √2], ?_, rfl, rfl, ?_, ?_⟩
  · rw [LinearIndependent.pair_iff]
    intro s t h
    rw [Rat.smul_def, Rat.smul_def, mul_one] at h
    exact independent h
  · rw [emb_def]
    simp [co, Fin.sum_univ_two]
  · rw [emb_def]
    simp [co, Fin.sum_univ_two]

theorem emb_nonneg {a : R} (h : Zsqrtd.Nonneg a) : 0 ≤ emb a := by
  have h2 : √2 * √2 = 2 := Real.mul_self_sqrt (by norm_num)
  have h0 : 0 ≤ √2 := Real.sqrt_nonneg 2
  rw [emb_def]
  obtain ⟨x, y, rfl | rfl | rfl⟩ := Zsqrtd.nonneg_cases h
  · simp only [Int.cast_natCast]
    positivity
  · have hq : 2 * y * y ≤ 1 * x * x := Zsqrtd.nonnegg_pos_neg.1 h
    have hq : (2 : ℝ) * y * y ≤ 1 * x * x := by exact_mod_cast hq
    simp only [Int.cast_natCast, Int.cast_neg]
    have : (y : ℝ) * √2 ≤ x := by
      apply abs_le_of_sq_le_sq' _ (by positivity) |>.2
      calc ((y : ℝ) * √2) ^ 2 = y * y * (√2 * √2) := by ring
        _ ≤ (x : ℝ) ^ 2 := by rw [h2]; linarith
    linarith
  · have hq : 1 * x * x ≤ 2 * y * y := Zsqrtd.nonnegg_neg_pos.1 h
    have hq : (1 : ℝ) * x * x ≤ 2 * y * y := by exact_mod_cast hq
    simp only [Int.cast_natCast, Int.cast_neg]
    have : (x : ℝ) ≤ y * √2 := by
      apply abs_le_of_sq_le_sq' _ (by positivity) |>.2
      calc (x : ℝ) ^ 2 ≤ y * y * (√2 * √2) := by rw [h2]; linarith
        _ = ((y : ℝ) * √2) ^ 2 := by ring
    linarith

theorem emb_injective : Function.Injective emb := Zsqrtd.toReal_injective _ (by
  intro n h
  have h : (2 : ℤ) = n * n := h
  have h1 : n < 2 := by nlinarith
  have h2 : -2 < n := by nlinarith
  interval_cases n <;> omega)

theorem emb_strictMono : StrictMono emb := by
  intro a b hab
  have h1 : 0 ≤ emb (b - a) := emb_nonneg (Zsqrtd.nonneg_iff_zero_le.2 (sub_nonneg.2 hab.le))
  rw [map_sub, sub_nonneg] at h1
  exact lt_of_le_of_ne h1 fun h => hab.ne (emb_injective h)

/-- Two cylinders with the same modulus and coordinates in ℤ[√2]. -/
def cylinders : List (FlowPiece R) := [⟨some true, ⟨0, 1⟩, 1⟩, ⟨some true, ⟨0, ⟨1, 1⟩⟩, ⟨3, 2⟩⟩]

theorem emb_pos_iff {a : R} : 0 < a ↔ 0 < emb a := by
  rw [← emb_strictMono.lt_iff_lt, map_zero]

theorem cylinders_proper : Proper cylinders := by
  intro c hc
  simp only [cylinders, List.mem_cons, List.not_mem_nil, or_false] at hc
  rcases hc with rfl | rfl
  · exact ⟨one_pos, fun h => by simpa using congrArg Vec.y h⟩
  · refine ⟨emb_pos_iff.2 ?_, fun h => ?_⟩
    · rw [emb_def]
      have := Real.sqrt_nonneg 2
      push_cast
      linarith
    · have := congrArg Zsqrtd.re (congrArg Vec.y h)
      simp at this

theorem modulus_cylinder (b : Option Bool) : modulus emb (⟨b, ⟨0, ⟨1, 1⟩⟩, ⟨3, 2⟩⟩ : FlowPiece R) = 1 := by
  unfold modulus
  have h2 : √2 * √2 = 2 := Real.mul_self_sqrt (by norm_num)
  have h0 : 0 ≤ √2 := Real.sqrt_nonneg 2
  simp only [map_zero, emb_def]
  push_cast
  have : (0 : ℝ) ^ 2 + (1 + 1 * √2) ^ 2 = 3 + 2 * √2 := by linear_combination h2
  rw [this, div_self]
  linarith

theorem modulus_one (b : Option Bool) : modulus emb (⟨b, ⟨0, 1⟩, 1⟩ : FlowPiece R) = 1 := by
  unfold modulus
  simp

theorem cylinders_parabolic : Parabolic emb cylinders := by
  have hm : ∀ c ∈ cylinders, c.cylinder = some true ∧ modulus emb c = 1 := by
    intro c hc
    simp only [cylinders, List.mem_cons, List.not_mem_nil, or_false] at hc
    rcases hc with rfl | rfl
    · exact ⟨rfl, modulus_one _⟩
    · exact ⟨rfl, modulus_cylinder _⟩
  refine ⟨fun c hc => (hm c hc).1, fun c hc d hd => ?_⟩
  rw [(hm c hc).2, (hm d hd).2]
  exact ⟨1, 1, one_ne_zero, one_ne_zero, rfl⟩

example : StrictMono emb ∧ IsCoefficients emb co ∧ Proper cylinders ∧ parabolic co cylinders = .ok (some true) :=
  ⟨emb_strictMono, co_isCoefficients, cylinders_proper,
    (parabolic_true emb_strictMono co_isCoefficients cylinders_proper).2 cylinders_parabolic⟩

end Verif.C47
