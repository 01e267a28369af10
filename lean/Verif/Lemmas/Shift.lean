import Verif.Spec.Shift
import Verif.Lemmas.Point
import Verif.Lemmas.Cone
import Verif.Lemmas.FlatMaps
import Verif.Lemmas.Sector
import Verif.Props.C26
import Mathlib.Topology.Order.IntermediateValue
import Mathlib.Topology.Order.Compact
import Mathlib.Topology.Instances.Real.Lemmas
import Mathlib.Topology.Algebra.Polynomial

/-!
# Lemmas about shifts of half edges
-/

namespace Verif

open Spec Tri FlatTri Vec

set_option linter.unusedSectionVars false

variable {T : Type} [CommRing T] [LinearOrder T] [IsStrictOrderedRing T]
variable {K : Type*} [Field K] [LinearOrder K] [IsStrictOrderedRing K]

section Plane

theorem zero_of_cross_dot {V W : Vec ℝ} (hV : V ≠ 0) (hc : cross V W = 0) (hd : dot V W = 0) : W = 0 := by
  have hp : 0 < dot V V := dot_self_pos hV
  unfold cross at hc
  unfold dot at hd hp
  ext
  · have : W.x * (V.x * V.x + V.y * V.y) = 0 := by linear_combination V.x * hd - V.y * hc
    exact (mul_eq_zero.1 this).resolve_right hp.ne'
  · have : W.y * (V.x * V.x + V.y * V.y) = 0 := by linear_combination V.y * hd + V.x * hc
    exact (mul_eq_zero.1 this).resolve_right hp.ne'

theorem dot_comm' (V W : Vec ℝ) : dot V W = dot W V := by unfold dot; ring

/-- Vectors on a line. -/
theorem dot_collinear {a b c : Vec ℝ} (h1 : cross a b = 0) (h2 : cross b c = 0) : dot a b * dot b c = dot a c * dot b b := by
  unfold cross dot at *
  linear_combination (b.x * c.y - b.y * c.x) * h1

end Plane

namespace Shift

variable {S : FlatTri T} {shift : HE → Vec T} {f : T →+* ℝ}

theorem det_value (e g : HE) (t : ℝ) :
    C26.value f (S.shiftDet shift e g) t = cross (shiftedAt f S shift t e) (shiftedAt f S shift t g) := by
  unfold C26.value shiftDet shiftedAt cross Vec.map
  simp only [map_sub, map_add, map_mul, add_x, add_y, smul_x, smul_y]
  ring

theorem shiftedAt_odd (hS : S.Shut) (h : IsShift S shift) {e : HE} (he : e < S.tri.size) (t : ℝ) :
    shiftedAt f S shift t (neg e) = -shiftedAt f S shift t e := by
  unfold shiftedAt
  rw [hS.flat.odd e he, h.odd e (mem_halfEdges.2 he)]
  ext <;> simp [Vec.map] <;> ring

theorem shiftedAt_closed (hS : S.Shut) (h : IsShift S shift) {e : HE} (he : e < S.tri.size) (t : ℝ) :
    shiftedAt f S shift t e + shiftedAt f S shift t (S.tri.nextInFace e) +
      shiftedAt f S shift t (S.tri.nextInFace (S.tri.nextInFace e)) = 0 := by
  have h1 := hS.flat.closed e (hS.nb e he)
  have h2 := h.closed e (mem_halfEdges.2 he)
  have hx := congrArg f (congrArg Vec.x h1)
  have hy := congrArg f (congrArg Vec.y h1)
  have hx' := congrArg f (congrArg Vec.x h2)
  have hy' := congrArg f (congrArg Vec.y h2)
  simp only [add_x, add_y, zero_x, zero_y, map_add, map_zero] at hx hy hx' hy'
  unfold Tri.nextInFace at hx' hy'
  unfold shiftedAt Vec.map Tri.nextInFace
  ext
  · simp only [add_x, smul_x, zero_x]
    linear_combination hx + t * hx'
  · simp only [add_y, smul_y, zero_y]
    linear_combination hy + t * hy'

theorem next_vertex (hS : S.Shut) {e : HE} (he : e < S.tri.size) :
    S.tri.nextAtVertex e = neg (S.tri.nextInFace (S.tri.nextInFace e)) := by
  have h1 := hS.flat.coh.link' (hS.nb e he)
  have hi : S.tri.faces.inv e = S.tri.faces.fwd (S.tri.faces.fwd e) := by
    rw [← hS.flat.coh.hf.left (S.tri.faces.fwd (S.tri.faces.fwd e)), hS.flat.coh.tri]
  exact h1.trans (by rw [hi]; rfl)

theorem shiftedAt_corner (hS : S.Shut) (h : IsShift S shift) {e : HE} (he : e < S.tri.size) (t : ℝ) :
    shiftedAt f S shift t (S.tri.nextAtVertex e) = shiftedAt f S shift t e + shiftedAt f S shift t (S.tri.nextInFace e) := by
  rw [next_vertex hS he, shiftedAt_odd (e := S.tri.nextInFace (S.tri.nextInFace e)) hS h (hS.next_lt (hS.next_lt he)), neg_eq_iff_add_eq_zero, ← shiftedAt_closed hS h he t]
  unfold Tri.nextInFace
  abel

theorem det_area (hS : S.Shut) (h : IsShift S shift) {e : HE} (he : e < S.tri.size) (t : ℝ) :
    C26.value f (S.shiftDet shift e (S.tri.nextAtVertex e)) t = areaAt f S shift t e := by
  rw [det_value, shiftedAt_corner hS h he, cross_add_right, cross_self, zero_add]
  rfl

theorem area_next (hS : S.Shut) (h : IsShift S shift) {e : HE} (he : e < S.tri.size) (t : ℝ) :
    areaAt f S shift t (S.tri.nextInFace e) = areaAt f S shift t e := by
  have := shiftedAt_closed (f := f) hS h he t
  have h3 : shiftedAt f S shift t (S.tri.nextInFace (S.tri.nextInFace e)) =
      -(shiftedAt f S shift t e + shiftedAt f S shift t (S.tri.nextInFace e)) := by
    rw [eq_neg_iff_add_eq_zero, ← this]
    abel
  unfold areaAt
  rw [h3]
  unfold cross
  simp
  ring

/-- The first loop. -/
theorem collapses_spec {A : Option (Approx T K)} (hA : ZeroIsExact A) (hf : StrictMono f) {e : HE} (he : S.vec e ≠ 0) :
    (S.shiftCollapses A shift e = .error .invalidArgument ∧ ∃ t, 0 < t ∧ t < 1 ∧ shiftedAt f S shift t e = 0) ∨
    (S.shiftCollapses A shift e = .ok true ∧ shiftedAt f S shift 1 e = 0 ∧ ∀ t, 0 ≤ t → t < 1 → shiftedAt f S shift t e ≠ 0) ∨
    (S.shiftCollapses A shift e = .ok false ∧ ∀ t, 0 ≤ t → t ≤ 1 → shiftedAt f S shift t e ≠ 0) := by
  have hV := map_ne_zero f hf he
  set V := (S.vec e).map f with hVdef
  set W := (shift e).map f with hWdef
  have hs : ∀ t, shiftedAt f S shift t e = V + t • W := fun t => rfl
  unfold shiftCollapses
  by_cases h0 : shift e = 0
  · refine .inr (.inr ⟨?_, fun t _ _ => ?_⟩)
    · rw [if_neg]
      rw [nonzero_iff]
      exact not_not.2 h0
    · rw [hs, hWdef, h0, show (0 : Vec T).map f = 0 by ext <;> simp [Vec.map], smul_zero, add_zero]
      exact hV
  rw [if_pos (nonzero_iff.2 h0)]
  by_cases hc : cross (S.vec e) (shift e) = 0
  · have hccw : Vec.ccw A (S.vec e) (shift e) = .collinear := by rw [Vec.ccw_eq, Vec.ccwExact_collinear]; exact hc
    rw [if_pos hccw]
    have hcV : cross V W = 0 := by rw [hVdef, hWdef, cross_map, hc, map_zero]
    have hct : ∀ t : ℝ, cross V (V + t • W) = 0 := by
      intro t
      rw [cross_add_right, cross_self, cross_smul_right, hcV, mul_zero, add_zero]
    have hdt : ∀ t : ℝ, dot V (V + t • W) = dot V V + t * dot V W := by
      intro t
      unfold dot
      simp
      ring
    have hz : ∀ t : ℝ, V + t • W = 0 ↔ dot V V + t * dot V W = 0 := by
      intro t
      rw [← hdt]
      exact ⟨fun hx => by rw [hx]; simp [dot], fun hx => zero_of_cross_dot hV (hct t) hx⟩
    have hp := dot_self_pos hV
    have hd : f (dot (S.vec e) (S.vec e + shift e)) = dot V V + dot V W := by
      rw [← dot_map]
      unfold dot
      simp only [hVdef, hWdef, Vec.map, add_x, add_y, map_add]
      ring
    have h0f := map_zero f
    by_cases k1 : dot (S.vec e) (S.vec e + shift e) = 0
    · rw [k1, h0f] at hd
      have hzero : S.vec e + shift e = 0 := by
        have hz1 : V + (1 : ℝ) • W = 0 := by rw [hz]; linarith
        have hx := congrArg Vec.x hz1
        have hy := congrArg Vec.y hz1
        simp only [hVdef, hWdef, Vec.map, add_x, add_y, smul_x, smul_y, one_mul, zero_x, zero_y, ← map_add] at hx hy
        ext
        · exact hf.injective (hx.trans h0f.symm)
        · exact hf.injective (hy.trans h0f.symm)
      rw [hzero, hA]
      refine .inr (.inl ⟨rfl, ?_, fun t h1 h2 => ?_⟩)
      · rw [hs, hz]; linarith
      · rw [hs, Ne, hz]
        intro hx
        nlinarith
    rw [Vec.orientation_eq A k1]
    unfold orientationExact
    rw [if_neg k1]
    by_cases k2 : dot (S.vec e) (S.vec e + shift e) > 0
    · rw [if_pos k2]
      have : 0 < dot V V + dot V W := by rw [← hd, ← h0f]; exact hf k2
      refine .inr (.inr ⟨rfl, fun t h1 h2 => ?_⟩)
      rw [hs, Ne, hz]
      intro hx
      nlinarith [mul_nonneg h1 this.le, mul_nonneg (sub_nonneg.2 h2) hp.le]
    · rw [if_neg k2]
      have : dot V V + dot V W < 0 := by
        rw [← hd, ← h0f]
        exact hf (lt_of_le_of_ne (not_lt.1 k2) k1)
      have hn : 0 < -dot V W := by linarith
      refine .inl ⟨rfl, dot V V / -dot V W, div_pos hp hn, (div_lt_one hn).2 (by linarith), ?_⟩
      rw [hs, hz]
      have hn' : dot V W ≠ 0 := by intro hx; rw [hx] at hn; simp at hn
      field_simp
      ring
  · have hccw : Vec.ccw A (S.vec e) (shift e) ≠ .collinear := by rw [Vec.ccw_eq, Ne, Vec.ccwExact_collinear]; exact hc
    rw [if_neg hccw]
    refine .inr (.inr ⟨rfl, fun t h1 h2 hx => ?_⟩)
    rw [hs] at hx
    have h1 : cross V (V + t • W) = t * cross V W := by rw [cross_add_right, cross_self, cross_smul_right, zero_add]
    rw [hx, cross_zero_right, hVdef, hWdef, cross_map] at h1
    rcases mul_eq_zero.1 h1.symm with h2 | h2
    · rw [h2, zero_smul, add_zero] at hx
      exact hV hx
    · exact hc (hf.injective (h2.trans (map_zero f).symm))

theorem collapsesLoop_spec {A : Option (Approx T K)} (hA : ZeroIsExact A) (hf : StrictMono f) :
    ∀ l : List HE, (∀ e ∈ l, S.vec e ≠ 0) →
      (S.shiftCollapsesLoop A shift l = .error .invalidArgument ∧ ∃ e ∈ l, ∃ t, 0 < t ∧ t < 1 ∧ shiftedAt f S shift t e = 0) ∨
      ∃ c, S.shiftCollapsesLoop A shift l = .ok c ∧ (∀ e, e ∈ c ↔ e ∈ l ∧ shiftedAt f S shift 1 e = 0) ∧
        ∀ e ∈ l, ∀ t, 0 ≤ t → t < 1 → shiftedAt f S shift t e ≠ 0
  | [], _ => .inr ⟨[], rfl, by simp, by simp⟩
  | e :: l, hl => by
    have he := hl e (by simp)
    rcases collapses_spec (shift := shift) hA hf he with ⟨h1, t, h2⟩ | ⟨h1, h2, h3⟩ | ⟨h1, h2⟩
    · left
      refine ⟨?_, e, by simp, t, h2⟩
      rw [shiftCollapsesLoop, h1]
      rfl
    all_goals
      rcases collapsesLoop_spec hA hf l fun g hg => hl g (by simp [hg]) with ⟨g1, g, g2, g3⟩ | ⟨c, g1, g2, g3⟩
      · left
        refine ⟨?_, g, by simp [g2], g3⟩
        rw [shiftCollapsesLoop, h1, g1]
        rfl
    · right
      refine ⟨e :: c, ?_, fun x => ?_, ?_⟩
      · rw [shiftCollapsesLoop, h1, g1]
        rfl
      · rw [List.mem_cons, List.mem_cons, g2]
        constructor
        · rintro (rfl | ⟨k1, k2⟩)
          · exact ⟨.inl rfl, h2⟩
          · exact ⟨.inr k1, k2⟩
        · rintro ⟨rfl | k1, k2⟩
          · exact .inl rfl
          · exact .inr ⟨k1, k2⟩
      · intro x hx
        rcases List.mem_cons.1 hx with rfl | hx
        · exact h3
        · exact g3 x hx
    · right
      refine ⟨c, ?_, fun x => ?_, ?_⟩
      · rw [shiftCollapsesLoop, h1, g1]
        rfl
      · rw [List.mem_cons, g2]
        constructor
        · rintro ⟨k1, k2⟩
          exact ⟨.inr k1, k2⟩
        · rintro ⟨rfl | k1, k2⟩
          · exact absurd k2 (h2 1 zero_le_one le_rfl)
          · exact ⟨k1, k2⟩
      · intro x hx
        rcases List.mem_cons.1 hx with rfl | hx
        · exact fun t k1 k2 => h2 t k1 k2.le
        · exact g3 x hx

/-- The loop over the precisions. -/
theorem hits_spec {F : Approx T ℝ} (hF : F.value = f) {A : ℕ → Approx T ℝ} (hA : ∀ n, (A n).value = f) {t : ℕ → Ball ℝ} {τ : ℝ} (ht : ∀ n, (t n).Mem τ) (dbg : Bool)
    (v sv w sw : Vec T) (hd : dot (v.map f + τ • sv.map f) (w.map f + τ • sw.map f) ≠ 0) :
    ∀ (fuel n : ℕ) {r}, shiftHits F A t dbg v sv w sw fuel n = some r →
      r = .ok (decide (dot (v.map f + τ • sv.map f) (w.map f + τ • sw.map f) < 0))
  | 0, _, _, h => by cases h
  | fuel + 1, n, r, h => by
    have hat : ∀ x s : T, ((A n).add ((A n).arb x) ((A n).mul (t n) ((A n).arb s))).Mem (f x + τ * f s) := by
      intro x s
      have h1 := (A n).arb_mem x
      have h2 := (A n).arb_mem s
      rw [hA n] at h1 h2
      exact (A n).add_mem h1 ((A n).mul_mem (ht n) h2)
    have hm := F.add_mem (F.mul_mem (hat v.x sv.x) (hat w.x sw.x)) (F.mul_mem (hat v.y sv.y) (hat w.y sw.y))
    have e1 : dot (v.map f + τ • sv.map f) (w.map f + τ • sw.map f) =
        (f v.x + τ * f sv.x) * (f w.x + τ * f sw.x) + (f v.y + τ * f sv.y) * (f w.y + τ * f sw.y) := by
      simp [dot, Vec.map]
    have ih := fun {r'} => hits_spec hF hA ht dbg v sv w sw hd fuel (n + 1) (r := r')
    rw [e1] at hd ih ⊢
    generalize (f v.x + τ * f sv.x) * (f w.x + τ * f sw.x) + (f v.y + τ * f sv.y) * (f w.y + τ * f sw.y) = D at hm hd ih ⊢
    have h0 : (Ball.exact (0 : ℝ)).Mem 0 := by unfold Ball.exact Ball.Mem; simp
    rw [shiftHits] at h
    dsimp only at h
    generalize F.add (F.mul ((A n).add ((A n).arb v.x) ((A n).mul (t n) ((A n).arb sv.x)))
      ((A n).add ((A n).arb w.x) ((A n).mul (t n) ((A n).arb sw.x)))) (F.mul ((A n).add ((A n).arb v.y) ((A n).mul (t n) ((A n).arb sv.y)))
      ((A n).add ((A n).arb w.y) ((A n).mul (t n) ((A n).arb sw.y)))) = d at hm h
    cases hg : d.gt (Ball.exact 0) with
    | none =>
      rw [hg] at h
      dsimp only at h
      exact ih h
    | some b =>
      have hb := Ball.gt_sound hm h0 hg
      cases b with
      | true =>
        rw [hg] at h
        cases h
        have : 0 < D := by simpa using hb.symm
        rw [decide_eq_false (not_lt.2 this.le)]
      | false =>
        rw [hg] at h
        dsimp only at h
        have : ¬ 0 < D := by simpa using hb.symm
        have hneg : D < 0 := lt_of_le_of_ne (not_lt.1 this) hd
        rw [if_neg] at h
        · cases h
          rw [decide_eq_true hneg]
        · intro he
          have := Ball.eq_sound hm h0 he
          simp [hd] at this

theorem exists_first (hS : S.Shut) (hf : StrictMono f) {e : HE} (he : e < S.tri.size)
    (hn : ¬ ∀ t, 0 ≤ t → t ≤ 1 → 0 < areaAt f S shift t e) : ∃ τ, 0 < τ ∧ VanishesFirst f S shift e τ := by
  have h0 : 0 < areaAt f S shift 0 e := by
    have := hf (hS.flat.oriented e (hS.nb e he))
    rw [map_zero, ← cross_map] at this
    unfold areaAt shiftedAt Tri.nextInFace
    simpa using this
  have hcont : Continuous fun t => areaAt f S shift t e := by
    unfold areaAt shiftedAt cross
    simp only [add_x, add_y, smul_x, smul_y]
    fun_prop
  have hn' : ∃ t, 0 ≤ t ∧ t ≤ 1 ∧ areaAt f S shift t e ≤ 0 := by
    push Not at hn
    exact hn
  obtain ⟨t, ht0, ht1, ht⟩ := hn'
  obtain ⟨r, hr, hr0⟩ := intermediate_value_Icc' ht0 hcont.continuousOn (show (0 : ℝ) ∈ Set.Icc (areaAt f S shift t e) (areaAt f S shift 0 e) from ⟨ht, h0.le⟩)
  have hcl : IsCompact (Set.Icc (0 : ℝ) 1 ∩ (fun t => areaAt f S shift t e) ⁻¹' {0}) :=
    isCompact_Icc.inter_right (isClosed_singleton.preimage hcont)
  obtain ⟨τ, ⟨⟨k1, k2⟩, k3⟩, k4⟩ := hcl.exists_isLeast ⟨r, ⟨hr.1, hr.2.trans ht1⟩, hr0⟩
  have k3 : areaAt f S shift τ e = 0 := k3
  refine ⟨τ, lt_of_le_of_ne k1 fun hx => ?_, k1, k2, k3, fun s hs1 hs2 hs3 => ?_⟩
  · rw [← hx] at k3
    exact h0.ne' k3
  · exact absurd (k4 ⟨⟨hs1, hs2.le.trans k2⟩, hs3⟩) (not_le.2 hs2)

/-- The second loop. -/
theorem flips_spec (hS : S.Shut) (h : IsShift S shift) (hf : StrictMono f) {F : Approx T ℝ} (hF : F.value = f) {A : ℕ → Approx T ℝ} (hA : ∀ n, (A n).value = f)
    {root : Quadratic T → ℕ → Ball ℝ} (hr : EnclosesRoot f root) {dbg : Bool} {fuel : ℕ} {c : List HE}
    (hc : ∀ e, e ∈ c ↔ e ∈ S.tri.halfEdges ∧ shiftedAt f S shift 1 e = 0)
    (hz : ∀ e ∈ S.tri.halfEdges, ∀ t, 0 ≤ t → t < 1 → shiftedAt f S shift t e ≠ 0) {e : HE} (he : e < S.tri.size) {r}
    (hx : shiftFlips F A root dbg fuel S shift c e = some r) :
    ∃ b, r = .ok b ∧ ((∀ t, 0 ≤ t → t ≤ 1 → 0 < areaAt f S shift t e) → b = false) ∧
      (shiftedAt f S shift 1 e ≠ 0 → shiftedAt f S shift 1 (S.tri.nextAtVertex e) ≠ 0 → ∀ τ, VanishesFirst f S shift e τ →
        b = decide (dot (shiftedAt f S shift τ e) (shiftedAt f S shift τ (S.tri.nextAtVertex e)) < 0)) ∧
      (b = true → shiftedAt f S shift 1 e ≠ 0 ∧ shiftedAt f S shift 1 (S.tri.nextAtVertex e) ≠ 0) := by
  have hg : S.tri.nextAtVertex e < S.tri.size := by
    rw [next_vertex hS he]
    exact hS.neg_lt (hS.next_lt (hS.next_lt he))
  have hcol : ∀ x, x < S.tri.size → (x ∈ c ∨ neg x ∈ c ↔ shiftedAt f S shift 1 x = 0) := by
    intro x hx
    rw [hc, hc, shiftedAt_odd hS h hx, neg_eq_zero, mem_halfEdges, mem_halfEdges]
    exact ⟨fun k => k.elim And.right And.right, fun k => .inl ⟨hx, k⟩⟩
  unfold shiftFlips at hx
  dsimp only at hx
  have hpos : (S.shiftDet shift e (S.tri.nextAtVertex e)).positive = true ↔ ∀ t, 0 ≤ t → t ≤ 1 → 0 < areaAt f S shift t e := by
    rw [C26.positive_correct f hf]
    simp only [det_area hS h he]
  rw [if_neg] at hx
  swap
  · rintro ⟨-, hd⟩
    apply hd
    have := (hS.flat.corner (hS.nb e he)).2
    unfold Quadratic.eval shiftDet Tri.nextAtVertex
    simpa [cross, mul_comm] using this
  by_cases h1 : (S.shiftDet shift e (S.tri.nextAtVertex e)).positive = true
  · rw [if_pos h1] at hx
    cases hx
    refine ⟨false, rfl, fun _ => rfl, fun _ _ τ hτ => ?_, by simp⟩
    exact absurd hτ.2.2.1 (hpos.1 h1 τ hτ.1 hτ.2.1).ne'
  rw [if_neg h1] at hx
  by_cases h2 : e ∈ c ∨ neg e ∈ c ∨ S.tri.nextAtVertex e ∈ c ∨ neg (S.tri.nextAtVertex e) ∈ c
  · rw [if_pos h2] at hx
    cases hx
    refine ⟨false, rfl, fun _ => rfl, fun k1 k2 => ?_, by simp⟩
    rw [← or_assoc, hcol e he, hcol _ hg] at h2
    rcases h2 with h2 | h2
    · exact absurd h2 k1
    · exact absurd h2 k2
  rw [if_neg h2] at hx
  rw [← or_assoc, hcol e he, hcol _ hg, not_or] at h2
  have key : ∀ τ, VanishesFirst f S shift e τ →
      r = .ok (decide (dot (shiftedAt f S shift τ e) (shiftedAt f S shift τ (S.tri.nextAtVertex e)) < 0)) := by
    intro τ hτ
    refine hits_spec hF hA (hr _ τ hτ.1 hτ.2.1 ?_ ?_) dbg _ _ _ _ (fun hd => ?_) fuel 0 hx
    · exact (det_area hS h he τ).trans hτ.2.2.1
    · intro s k1 k2 k3
      exact hτ.2.2.2 s k1 k2 ((det_area hS h he s).symm.trans k3)
    · have hcr : cross (shiftedAt f S shift τ e) (shiftedAt f S shift τ (S.tri.nextAtVertex e)) = 0 := by
        rw [← det_value, det_area hS h he, hτ.2.2.1]
      have hne : ∀ x, x < S.tri.size → shiftedAt f S shift 1 x ≠ 0 → shiftedAt f S shift τ x ≠ 0 := by
        intro x hx k
        rcases lt_or_eq_of_le hτ.2.1 with k1 | k1
        · exact hz x (mem_halfEdges.2 hx) τ hτ.1 k1
        · rw [k1]
          exact k
      exact hne _ hg h2.2 (zero_of_cross_dot (hne _ he h2.1) hcr hd)
  obtain ⟨τ, -, hτ⟩ := exists_first hS hf he (fun k => h1 (hpos.2 k))
  refine ⟨_, key τ hτ, fun k => absurd (hpos.2 k) h1, fun _ _ τ' hτ' => ?_, fun _ => h2⟩
  have := (key τ hτ).symm.trans (key τ' hτ')
  exact Except.ok.inj this

theorem flipsLoop_spec {F : Approx T K} {A : ℕ → Approx T K} {root : Quadratic T → ℕ → Ball K} {dbg : Bool} {fuel : ℕ} {c : List HE} :
    ∀ (l : List HE), (∀ e ∈ l, ∀ r, shiftFlips F A root dbg fuel S shift c e = some r → ∃ b, r = .ok b) → ∀ {r},
      shiftFlipsLoop F A root dbg fuel S shift c l = some r → ∃ m, r = .ok m ∧
        (∀ e ∈ l, ∃ b, shiftFlips F A root dbg fuel S shift c e = some (.ok b)) ∧
        ∀ x, x ∈ m ↔ ∃ e ∈ l, shiftFlips F A root dbg fuel S shift c e = some (.ok true) ∧ x = S.tri.nextInFace e
  | [], _, r, h => by
    cases h
    exact ⟨[], rfl, by simp, by simp⟩
  | e :: l, hl, r, h => by
    rw [shiftFlipsLoop] at h
    cases k : shiftFlips F A root dbg fuel S shift c e with
    | none => rw [k] at h; cases h
    | some r' =>
      obtain ⟨b, rfl⟩ := hl e (by simp) r' k
      rw [k] at h
      simp only [Option.bind_some] at h
      cases k' : shiftFlipsLoop F A root dbg fuel S shift c l with
      | none => rw [k'] at h; cases h
      | some r'' =>
        obtain ⟨m, rfl, h1, h2⟩ := flipsLoop_spec l (fun x hx => hl x (by simp [hx])) k'
        rw [k'] at h
        cases h
        refine ⟨_, rfl, ?_, fun x => ?_⟩
        · intro x hx
          rcases List.mem_cons.1 hx with rfl | hx
          · exact ⟨b, k⟩
          · exact h1 x hx
        · constructor
          · intro hx
            cases b with
            | false =>
              obtain ⟨g, g1, g2⟩ := (h2 x).1 hx
              exact ⟨g, by simp [g1], g2⟩
            | true =>
              rcases List.mem_cons.1 hx with rfl | hx
              · exact ⟨e, by simp, k, rfl⟩
              · obtain ⟨g, g1, g2⟩ := (h2 x).1 hx
                exact ⟨g, by simp [g1], g2⟩
          · rintro ⟨g, g1, g2, rfl⟩
            rcases List.mem_cons.1 g1 with rfl | g1
            · rw [k] at g2
              cases g2
              simp
            · have := (h2 _).2 ⟨g, g1, g2, rfl⟩
              cases b <;> simp [this]

/-- One of the corners of a degenerate triangle is in the interior of a side. -/
theorem some_corner (hS : S.Shut) (h : IsShift S shift) {e : HE} (he : e < S.tri.size) {τ : ℝ} (hτ : areaAt f S shift τ e = 0) :
    ∃ x, (x = e ∨ x = S.tri.nextInFace e ∨ x = S.tri.nextInFace (S.tri.nextInFace e)) ∧
      dot (shiftedAt f S shift τ x) (shiftedAt f S shift τ (S.tri.nextAtVertex x)) ≤ 0 := by
  by_contra hcon
  push Not at hcon
  have hn : S.tri.nextInFace e < S.tri.size := hS.next_lt he
  have hnn : S.tri.nextInFace (S.tri.nextInFace e) < S.tri.size := hS.next_lt hn
  have k1 := hcon e (.inl rfl)
  have k2 := hcon _ (.inr (.inl rfl))
  have k3 := hcon _ (.inr (.inr rfl))
  have tri : S.tri.nextInFace (S.tri.nextInFace (S.tri.nextInFace e)) = e := hS.flat.coh.tri e
  have hcl := shiftedAt_closed (f := f) hS h he τ
  rw [shiftedAt_corner hS h he] at k1
  rw [shiftedAt_corner hS h hn] at k2
  rw [shiftedAt_corner hS h hnn, tri] at k3
  unfold areaAt at hτ
  generalize shiftedAt f S shift τ e = a at *
  generalize shiftedAt f S shift τ (S.tri.nextInFace e) = b at *
  generalize shiftedAt f S shift τ (S.tri.nextInFace (S.tri.nextInFace e)) = c at *
  have hc : c = -(a + b) := by
    rw [eq_neg_iff_add_eq_zero, ← hcl]
    abel
  subst hc
  have e1 : dot (-(a + b)) (-(a + b) + a) = dot a b + dot b b := by unfold dot; simp; ring
  have e2 : dot b (b + -(a + b)) = -dot a b := by unfold dot; simp; ring
  have e3 : dot a (a + b) = dot a a + dot a b := by unfold dot; simp; ring
  rw [e1] at k3
  rw [e2] at k2
  rw [e3] at k1
  have e4 : dot a b * dot a b = dot a a * dot b b := by
    unfold dot
    unfold cross at hτ
    linear_combination (-(a.x * b.y - b.x * a.y)) * hτ
  nlinarith

theorem hits_stops {F : Approx T K} {A : ℕ → Approx T K} {t : ℕ → Ball K} {dbg : Bool} {v sv w sw : Vec T} {m : ℕ}
    (hm : (F.add (F.mul ((A m).add ((A m).arb v.x) ((A m).mul (t m) ((A m).arb sv.x)))
      ((A m).add ((A m).arb w.x) ((A m).mul (t m) ((A m).arb sw.x)))) (F.mul ((A m).add ((A m).arb v.y) ((A m).mul (t m) ((A m).arb sv.y)))
      ((A m).add ((A m).arb w.y) ((A m).mul (t m) ((A m).arb sw.y))))).gt (Ball.exact 0) ≠ none) :
    ∀ (fuel n : ℕ), n ≤ m → m < n + fuel → shiftHits F A t dbg v sv w sw fuel n ≠ none
  | 0, n, h1, h2 => by omega
  | fuel + 1, n, h1, h2 => by
    rw [shiftHits]
    dsimp only
    rcases h1.eq_or_lt with rfl | h1
    · split
      · rename_i hg
        exact absurd hg hm
      · exact Option.some_ne_none _
      · split_ifs <;> exact Option.some_ne_none _
    · split
      · exact hits_stops hm fuel (n + 1) (by omega) (by omega)
      · exact Option.some_ne_none _
      · split_ifs <;> exact Option.some_ne_none _

theorem flips_stops (hS : S.Shut) (h : IsShift S shift) (hf : StrictMono f) {F : Approx T ℝ} (hF : Decisive F) {A : ℕ → Approx T ℝ}
    (hA : Converging f A) {root : Quadratic T → ℕ → Ball ℝ} (hr : ConvergesToRoot f root) {dbg : Bool} {c : List HE}
    (hc : ∀ e, e ∈ c ↔ e ∈ S.tri.halfEdges ∧ shiftedAt f S shift 1 e = 0)
    (hz : ∀ e ∈ S.tri.halfEdges, ∀ t, 0 ≤ t → t < 1 → shiftedAt f S shift t e ≠ 0) {e : HE} (he : e < S.tri.size) :
    ∃ N, ∀ fuel ≥ N, shiftFlips F A root dbg fuel S shift c e ≠ none := by
  have hg : S.tri.nextAtVertex e < S.tri.size := by
    rw [next_vertex hS he]
    exact hS.neg_lt (hS.next_lt (hS.next_lt he))
  have hpos : (S.shiftDet shift e (S.tri.nextAtVertex e)).positive = true ↔ ∀ t, 0 ≤ t → t ≤ 1 → 0 < areaAt f S shift t e := by
    rw [C26.positive_correct f hf]
    simp only [det_area hS h he]
  unfold shiftFlips
  dsimp only
  by_cases h1 : (S.shiftDet shift e (S.tri.nextAtVertex e)).positive = true
  · refine ⟨0, fun fuel _ => ?_⟩
    split_ifs <;> exact Option.some_ne_none _
  by_cases h2 : e ∈ c ∨ neg e ∈ c ∨ S.tri.nextAtVertex e ∈ c ∨ neg (S.tri.nextAtVertex e) ∈ c
  · refine ⟨0, fun fuel _ => ?_⟩
    split_ifs <;> exact Option.some_ne_none _
  obtain ⟨τ, -, hτ⟩ := exists_first hS hf he (fun k => h1 (hpos.2 k))
  have hτe : Converges (root (S.shiftDet shift e (S.tri.nextAtVertex e))) τ := by
    refine hr _ τ hτ.1 hτ.2.1 ((det_area hS h he τ).trans hτ.2.2.1) fun s k1 k2 k3 => ?_
    exact hτ.2.2.2 s k1 k2 ((det_area hS h he s).symm.trans k3)
  have hcr : cross (shiftedAt f S shift τ e) (shiftedAt f S shift τ (S.tri.nextAtVertex e)) = 0 := by
    rw [← det_value, det_area hS h he, hτ.2.2.1]
  have hne : ∀ x, x < S.tri.size → x ∉ c → shiftedAt f S shift τ x ≠ 0 := by
    intro x hx k
    rcases lt_or_eq_of_le hτ.2.1 with k1 | k1
    · exact hz x (mem_halfEdges.2 hx) τ hτ.1 k1
    · rw [k1]
      exact fun k2 => k ((hc x).2 ⟨mem_halfEdges.2 hx, k2⟩)
  have hd : dot (shiftedAt f S shift τ e) (shiftedAt f S shift τ (S.tri.nextAtVertex e)) ≠ 0 := fun hd =>
    hne _ hg (fun k => h2 (.inr (.inr (.inl k)))) (zero_of_cross_dot (hne _ he fun k => h2 (.inl k)) hcr hd)
  have hat : ∀ x s : T, Converges (fun n => (A n).add ((A n).arb x)
      ((A n).mul (root (S.shiftDet shift e (S.tri.nextAtVertex e)) n) ((A n).arb s))) (f x + τ * f s) :=
    fun x s => hA.add (hA.arb x) (hA.mul hτe (hA.arb s))
  obtain ⟨m, hm⟩ := hF (hat (S.vec e).x (shift e).x) (hat (S.vec e).y (shift e).y) (hat (S.vec (S.tri.nextAtVertex e)).x (shift (S.tri.nextAtVertex e)).x)
    (hat (S.vec (S.tri.nextAtVertex e)).y (shift (S.tri.nextAtVertex e)).y) (by simpa [cross, shiftedAt, Vec.map] using hcr)
    (by simpa [dot, shiftedAt, Vec.map] using hd)
  refine ⟨m + 1, fun fuel hfuel => ?_⟩
  split_ifs
  · exact Option.some_ne_none _
  · exact hits_stops hm fuel 0 (Nat.zero_le _) (by omega)

theorem flipsLoop_stops {F : Approx T K} {A : ℕ → Approx T K} {root : Quadratic T → ℕ → Ball K} {dbg : Bool} {c : List HE} :
    ∀ (l : List HE), (∀ e ∈ l, ∃ N, ∀ fuel ≥ N, shiftFlips F A root dbg fuel S shift c e ≠ none) →
      ∃ N, ∀ fuel ≥ N, shiftFlipsLoop F A root dbg fuel S shift c l ≠ none
  | [], _ => ⟨0, fun _ _ => Option.some_ne_none _⟩
  | e :: l, hl => by
    obtain ⟨N, hN⟩ := hl e (by simp)
    obtain ⟨M, hM⟩ := flipsLoop_stops l fun x hx => hl x (by simp [hx])
    refine ⟨max N M, fun fuel hfuel => ?_⟩
    obtain ⟨r, hr⟩ := Option.ne_none_iff_exists'.1 (hN fuel (le_of_max_le_left hfuel))
    obtain ⟨r', hr'⟩ := Option.ne_none_iff_exists'.1 (hM fuel (le_of_max_le_right hfuel))
    rw [shiftFlipsLoop, hr]
    simp only [Option.bind_some]
    cases r with
    | error err => exact Option.some_ne_none _
    | ok b =>
      simp only
      rw [hr']
      exact Option.some_ne_none _

end Shift

end Verif
