import Verif.Lemmas.SaddleAngle
import Verif.Lemmas.SectorWalks
import Verif.Model.RetriangulationTurn

/-!
Turning around a vertex by full turns, and from one direction to another.
-/

set_option linter.unusedSectionVars false

namespace Verif.FlatTri

open Tri Vec Real Function Spec

variable {T : Type} [CommRing T] [LinearOrder T] [IsStrictOrderedRing T]
variable {K : Type} [Field K] [LinearOrder K] [IsStrictOrderedRing K]
variable {f : T →+* ℝ} {S : FlatTri T} {V : Finset HE} {θ : HE → ℝ} (A : Option (Approx T K))

/-- Turning far enough, one gets to any angle. -/
theorem Around.crossing (h : Around f S V θ) {e : HE} (he : e ∈ V) {B : ℝ} (hB : 0 ≤ B) :
    ∃ m, arc S θ e m ≤ B ∧ B < arc S θ e (m + 1) := by
  classical
  have hex : ∃ n, B < arc S θ e n := by
    obtain ⟨p, hp, hper, harc⟩ := h.period
    have hpos : 0 < ∑ x ∈ V, θ x := Finset.sum_pos (fun e he => (h.pos he).1) ⟨e, he⟩
    have hmul : ∀ k : ℕ, arc S θ e (k * p) = k * ∑ x ∈ V, θ x ∧ S.tri.nextAtVertex^[k * p] e = e := by
      intro k
      induction k with
      | zero => simp [arc_zero]
      | succ k ih =>
        rw [Nat.succ_mul, arc_add, ih.2, ih.1, harc e he, add_comm (k * p), iterate_add_apply, ih.2, hper e he]
        push_cast
        exact ⟨by ring, rfl⟩
    obtain ⟨k, hk⟩ := exists_nat_gt (B / ∑ x ∈ V, θ x)
    refine ⟨k * p, ?_⟩
    rw [(hmul k).1]
    exact (div_lt_iff₀ hpos).1 hk
  have h0 : Nat.find hex ≠ 0 := fun hz => by
    have := Nat.find_spec hex
    rw [hz, arc_zero] at this
    linarith
  obtain ⟨m, hm⟩ := Nat.exists_eq_succ_of_ne_zero h0
  refine ⟨m, not_lt.1 (Nat.find_min hex (by omega)), ?_⟩
  have := Nat.find_spec hex
  rwa [hm] at this

/-- The direction of a half edge after turning from a direction in a corner. -/
theorem Around.turns_vec (h : Around f S V θ) {e : HE} (he : e ∈ V) {u : Vec T} {σ : ℝ} (hu : InCorner f S θ e σ u) (n : ℕ) :
    Turns (u.map f) (arc S θ e n - σ) ((S.vec (S.tri.nextAtVertex^[n] e)).map f) := by
  have := hu.2.2.symm.trans (turn_iterate h he n)
  rwa [show -σ + arc S θ e n = arc S θ e n - σ by ring] at this

theorem turns_ne {u v : Vec ℝ} {α : ℝ} (h : Turns u α v) (hu : u ≠ 0) : v ≠ 0 := by
  rintro rfl
  obtain ⟨r, hr, e⟩ := h.symm
  refine hu ?_
  rw [e]
  unfold rotate
  simp [HSMul.hSMul, SMul.smul]
  rfl

theorem Around.corner_ne (h : Around f S V θ) {e : HE} (he : e ∈ V) {u : Vec T} {σ : ℝ} (hu : InCorner f S θ e σ u) : u.map f ≠ 0 :=
  turns_ne hu.2.2 (h.vec_ne he)

theorem Around.arc_mono (h : Around f S V θ) {e : HE} (he : e ∈ V) {m n : ℕ} (hmn : m ≤ n) : arc S θ e m ≤ arc S θ e n := by
  rcases hmn.eq_or_lt with rfl | hlt
  · exact le_rfl
  · exact (h.arc_lt he hlt).le

/-- A single full turn. -/
theorem Around.turnOnce (h : Around f S V θ) {e : HE} (he : e ∈ V) {u : Vec T} {σ : ℝ} (hu : InCorner f S θ e σ u) :
    ∃ m N, (∀ fuel ≥ N, S.turnOnce A fuel u e = some (S.tri.nextAtVertex^[m] e)) ∧ arc S θ e m ≤ σ + 2 * π ∧
      σ + 2 * π < arc S θ e (m + 1) := by
  have hpi := pi_pos
  have hu0 := h.corner_ne he hu
  have sgn : ∀ n, _ := fun n => ccw_turn A h.mono hu0 (h.turns_vec he hu n)
  have pos : ∀ n, _ := fun n => h.pos (h.iterate_mem he n)
  obtain ⟨a, a1, a2⟩ := h.crossing he (B := σ + π) (by linarith [hu.1])
  obtain ⟨m, m1, m2⟩ := h.crossing he (B := σ + 2 * π) (by linarith [hu.1])
  have ha : 1 ≤ a := by
    by_contra hc
    obtain rfl : a = 0 := by omega
    rw [arc_succ, arc_zero] at a2
    have := (pos 0).2
    simp only [iterate_zero_apply] at this a2
    linarith [hu.1]
  have hlt : ∀ {i j : ℕ}, arc S θ e i < arc S θ e j → i < j := fun {i j} hij => by
    by_contra hc
    linarith [h.arc_mono he (not_lt.1 hc)]
  have ham : a < m := by
    have k := arc_succ (S := S) (θ := θ) e a
    have k' := arc_succ (S := S) (θ := θ) e m
    have := (pos a).2
    have := (pos m).2
    have h3 : a + 1 < m + 1 ∨ a + 1 = m + 1 ∨ m + 1 < a + 1 := by omega
    rcases h3 with h3 | h3 | h3
    · omega
    · obtain rfl : a = m := by omega
      linarith
    · have := h.arc_mono he (show m + 1 ≤ a by omega)
      linarith
  have e0 : arc S θ e 0 = 0 := arc_zero e
  have e1 : arc S θ e 1 = θ e := arc_one e
  have w1 : ∀ fuel > 1, walk S.tri.nextAtVertex (S.turnsNot A u .counterclockwise) fuel e = some (S.tri.nextAtVertex^[1] e) := by
    intro fuel hfuel
    refine walk_eq (fun i hi => ?_) ?_ hfuel
    · obtain rfl : i = 0 := by omega
      unfold turnsNot
      rw [decide_eq_true_eq, ne_eq, (sgn 0).1, e0, zero_sub, sin_neg, not_lt, neg_nonpos]
      exact sin_nonneg_of_nonneg_of_le_pi hu.1 (by linarith [hu.2.1, (h.pos he).2])
    · unfold turnsNot
      rw [decide_eq_false_iff_not, not_not, (sgn 1).1, e1]
      exact sin_pos_of_pos_of_lt_pi (by linarith [hu.2.1]) (by linarith [hu.1, (h.pos he).2])
  have w2 : ∀ fuel > a, walk S.tri.nextAtVertex (S.turnsNot A u .clockwise) fuel (S.tri.nextAtVertex^[1] e) =
      some (S.tri.nextAtVertex^[a + 1] e) := by
    intro fuel hfuel
    rw [iterate_add_apply]
    refine walk_eq (fun i hi => ?_) ?_ hfuel
    · rw [← iterate_add_apply]
      unfold turnsNot
      rw [decide_eq_true_eq, ne_eq, (sgn (i + 1)).2.1, not_lt]
      have k1 := h.arc_mono he (show 1 ≤ i + 1 by omega)
      have k2 := h.arc_mono he (show i + 1 ≤ a by omega)
      exact sin_nonneg_of_nonneg_of_le_pi (by linarith [hu.2.1]) (by linarith)
    · rw [← iterate_add_apply]
      unfold turnsNot
      rw [decide_eq_false_iff_not, not_not, (sgn (a + 1)).2.1]
      have k := arc_succ (S := S) (θ := θ) e a
      have := (pos a).2
      rw [← sin_sub_two_pi]
      exact sin_neg_of_neg_of_neg_pi_lt (by linarith) (by linarith)
  have w3 : ∀ fuel > m - a, walk S.tri.nextAtVertex (S.turnsNot A u .counterclockwise) fuel (S.tri.nextAtVertex^[a + 1] e) =
      some (S.tri.nextAtVertex^[m + 1] e) := by
    intro fuel hfuel
    rw [show m + 1 = (m - a) + (a + 1) by omega, iterate_add_apply _ (m - a)]
    refine walk_eq (fun i hi => ?_) ?_ hfuel
    · rw [← iterate_add_apply]
      unfold turnsNot
      rw [decide_eq_true_eq, ne_eq, (sgn (i + (a + 1))).1, not_lt]
      have k1 := h.arc_mono he (show a + 1 ≤ i + (a + 1) by omega)
      have k2 := h.arc_mono he (show i + (a + 1) ≤ m by omega)
      rw [← sin_sub_two_pi]
      exact sin_nonpos_of_nonpos_of_neg_pi_le (by linarith) (by linarith)
    · rw [← iterate_add_apply, show (m - a) + (a + 1) = m + 1 by omega]
      unfold turnsNot
      rw [decide_eq_false_iff_not, not_not, (sgn (m + 1)).1]
      have k := arc_succ (S := S) (θ := θ) e m
      have := (pos m).2
      rw [← sin_sub_two_pi]
      exact sin_pos_of_pos_of_lt_pi (by linarith) (by linarith)
  refine ⟨m, m + 2, fun fuel hfuel => ?_, m1, m2⟩
  unfold FlatTri.turnOnce
  simp only [bind, Option.bind, pure]
  rw [w1 fuel (by omega)]
  simp only
  rw [w2 fuel (by omega)]
  simp only
  rw [w3 fuel (by omega)]
  simp only
  rw [iterate_succ_apply', prev_next h.flat]

/-- Any number of full turns. -/
theorem Around.turnFully (h : Around f S V θ) {u : Vec T} (k : ℕ) {e : HE} (he : e ∈ V) {σ : ℝ} (hu : InCorner f S θ e σ u) :
    ∃ e' ∈ V, ∃ σ' N, (∀ fuel ≥ N, S.turnFully A fuel u k e = some e') ∧ InCorner f S θ e' σ' u ∧
      TurnsTo S θ e σ (k * (2 * π)) e' σ' := by
  have hpi := pi_pos
  induction k generalizing e σ with
  | zero => exact ⟨e, he, σ, 0, fun _ _ => rfl, hu, by simp, 0, rfl, by simp [arc_zero]⟩
  | succ k ih =>
    obtain ⟨m, N, h1, h2, h3⟩ := h.turnOnce A he hu
    have hm := h.iterate_mem he m
    have hu' : InCorner f S θ (S.tri.nextAtVertex^[m] e) (σ + 2 * π - arc S θ e m) u := by
      rw [arc_succ] at h3
      refine ⟨by linarith, by linarith, ?_⟩
      have := (h.turns_vec he hu m).symm
      rw [← Turns.period] at this
      rwa [show -(arc S θ e m - σ) + 2 * π = σ + 2 * π - arc S θ e m by ring] at this
    obtain ⟨e', he', σ', N', g1, g2, g3, n, g4, g5⟩ := ih hm hu'
    refine ⟨e', he', σ', max N N', fun fuel hfuel => ?_, g2, by positivity, n + m, ?_, ?_⟩
    · unfold FlatTri.turnFully
      simp only [bind, Option.bind]
      rw [h1 fuel (le_trans (le_max_left _ _) hfuel)]
      exact g1 fuel (le_trans (le_max_right _ _) hfuel)
    · rw [iterate_add_apply]
      exact g4
    · rw [add_comm n, arc_add]
      push_cast
      linarith

/-- The loop that turns from one direction to another. -/
theorem Around.turnFromLoop (h : Around f S V θ) {u v : Vec T} {e : HE} (he : e ∈ V) {σ α : ℝ} (hu : InCorner f S θ e σ u)
    (hα0 : 0 ≤ α) (hα : α < 2 * π) (hv : Turns (u.map f) α (v.map f)) {m : ℕ} (m1 : arc S θ e m ≤ σ + α)
    (m2 : σ + α < arc S θ e (m + 1)) {k : ℕ} (hk : k ≤ m) {off : ℝ} {start : Vec T}
    (hs : InCorner f S θ (S.tri.nextAtVertex^[k] e) off start) (hoff : arc S θ e k + off ≤ σ + α) (hoff' : σ ≤ arc S θ e k + off)
    {fuel : ℕ} (hfuel : m - k < fuel) :
    S.turnFrom A v fuel (S.tri.nextAtVertex^[k] e) start = some (S.tri.nextAtVertex^[m] e) := by
  have hpi := pi_pos
  induction fuel generalizing k off start with
  | zero => omega
  | succ fuel ih =>
    have hk' := h.iterate_mem he k
    have pk := h.pos hk'
    have hsuc := arc_succ (S := S) (θ := θ) e k
    have hs0 := h.corner_ne hk' hs
    have hne := h.vec_ne (h.iterate_mem he (k + 1))
    have hn : S.tri.nextAtVertex (S.tri.nextAtVertex^[k] e) = S.tri.nextAtVertex^[k + 1] e := (iterate_succ_apply' _ _ _).symm
    -- the angle that is left
    have hleft : Turns (start.map f) (σ + α - (arc S θ e k + off)) (v.map f) := by
      have := (hs.2.2.symm.trans (h.turns_vec he hu k).symm).trans hv
      rwa [show -off + -(arc S θ e k - σ) + α = σ + α - (arc S θ e k + off) by ring] at this
    have hleft' : Turns ((S.vec (S.tri.nextAtVertex^[k + 1] e)).map f) (σ + α - arc S θ e (k + 1)) (v.map f) := by
      have := (h.turns_vec he hu (k + 1)).symm.trans hv
      rwa [show -(arc S θ e (k + 1) - σ) + α = σ + α - arc S θ e (k + 1) by ring] at this
    obtain ⟨c1, c2, c3⟩ := ccw_turn A h.mono hs0 hleft
    obtain ⟨d1, d2, d3⟩ := ccw_turn A h.mono hne hleft'
    have hsame : Vec.ccw A start v ≠ .collinear ∨ Vec.orientation A start v ≠ .same ↔ σ + α ≠ arc S θ e k + off := by
      rw [← not_and_or, not_iff_not]
      obtain ⟨r, hr, e1, e2⟩ := (turns_self (start.map f)).cross_eq hleft
      have hr := hr hs0
      rw [sub_zero] at e1 e2
      rw [dot_map] at e2
      have o : Vec.orientation A start v = .same ↔ 0 < cos (σ + α - (arc S θ e k + off)) := by
        rw [orientation_same, ← h.mono.lt_iff_lt, map_zero, e2]
        exact mul_pos_iff_of_pos_left hr
      rw [c3, o]
      constructor
      · rintro ⟨s1, s2⟩
        by_contra hc
        have hlt : 0 < σ + α - (arc S θ e k + off) := by
          rcases hoff.eq_or_lt with hz | hz
          · exact absurd hz.symm hc
          · linarith
        rcases lt_trichotomy (σ + α - (arc S θ e k + off)) π with hl | hl | hl
        · exact absurd s1 (sin_pos_of_pos_of_lt_pi hlt hl).ne'
        · rw [hl, cos_pi] at s2
          linarith
        · rw [← sin_sub_two_pi] at s1
          exact absurd s1 (sin_neg_of_neg_of_neg_pi_lt (by linarith) (by linarith)).ne
      · intro hz
        rw [hz, sub_self, sin_zero, cos_zero]
        exact ⟨rfl, one_pos⟩
    have hlast : σ + α < arc S θ e (k + 1) → k = m := fun hlt => by
      by_contra hc
      linarith [h.arc_mono he (show k + 1 ≤ m by omega)]
    unfold turnFrom
    by_cases hc : σ + α = arc S θ e k + off
    · rw [if_neg fun hx => hsame.1 hx hc]
      rw [hlast (by rw [hsuc]; linarith [hs.2.1])]
    · rw [if_pos (hsame.2 hc), hn]
      have hlt : 0 < σ + α - (arc S θ e k + off) := by
        rcases hoff.eq_or_lt with hz | hz
        · exact absurd hz.symm hc
        · linarith
      by_cases hend : σ + α < arc S θ e (k + 1)
      · rw [if_pos ⟨c1.2 (sin_pos_of_pos_of_lt_pi hlt (by linarith [hs.1])),
          d2.2 (sin_neg_of_neg_of_neg_pi_lt (by linarith) (by linarith [hs.1]))⟩, hlast hend]
      · have hkm : k < m := by
          by_contra hc
          obtain rfl : k = m := by omega
          exact hend m2
        rw [if_neg]
        · refine ih (by omega) (off := 0) ⟨le_rfl, (h.pos (h.iterate_mem he (k + 1))).1, turns_self _⟩ (by linarith) ?_ (by omega)
          linarith [hs.2.1]
        · rintro ⟨g1, g2⟩
          rw [c1] at g1
          rw [d2] at g2
          have hl : σ + α - (arc S θ e k + off) < π := by
            by_contra hl
            rw [← sin_sub_two_pi] at g1
            exact absurd g1 (not_lt.2 (sin_nonpos_of_nonpos_of_neg_pi_le (by linarith) (by linarith)))
          exact absurd g2 (not_lt.2 (sin_nonneg_of_nonneg_of_le_pi (by linarith) (by linarith [hs.2.1])))

/-- Turning from one direction to another, by less than a full turn. -/
theorem Around.turnFrom (h : Around f S V θ) {u v : Vec T} {e : HE} (he : e ∈ V) {σ α : ℝ} (hu : InCorner f S θ e σ u)
    (hα0 : 0 ≤ α) (hα : α < 2 * π) (hv : Turns (u.map f) α (v.map f)) :
    ∃ e' ∈ V, ∃ τ N, (∀ fuel ≥ N, S.turnFrom A v fuel e u = some e') ∧ InCorner f S θ e' τ v ∧ TurnsTo S θ e σ α e' τ := by
  obtain ⟨m, m1, m2⟩ := h.crossing he (B := σ + α) (by linarith [hu.1])
  refine ⟨S.tri.nextAtVertex^[m] e, h.iterate_mem he m, σ + α - arc S θ e m, m + 1, fun fuel hfuel => ?_, ⟨by linarith, ?_, ?_⟩,
    hα0, m, rfl, by ring⟩
  · have := h.turnFromLoop A he hu hα0 hα hv m1 m2 (Nat.zero_le m) (off := σ) (start := u) hu (by rw [arc_zero]; linarith)
      (by rw [arc_zero]; linarith) (fuel := fuel) (by omega)
    exact this
  · rw [arc_succ] at m2
    linarith
  · have := (h.turns_vec he hu m).symm.trans hv
    rwa [show -(arc S θ e m - σ) + α = σ + α - arc S θ e m by ring] at this

/-- Turns can be composed. -/
theorem TurnsTo.trans {e e' e'' : HE} {σ σ' σ'' α β : ℝ} (h1 : TurnsTo S θ e σ α e' σ') (h2 : TurnsTo S θ e' σ' β e'' σ'') :
    TurnsTo S θ e σ (α + β) e'' σ'' := by
  obtain ⟨a0, m, rfl, a1⟩ := h1
  obtain ⟨b0, n, rfl, b1⟩ := h2
  refine ⟨by linarith, n + m, by rw [iterate_add_apply], ?_⟩
  rw [add_comm n, arc_add]
  linarith

end Verif.FlatTri
