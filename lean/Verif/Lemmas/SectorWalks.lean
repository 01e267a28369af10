import Verif.Lemmas.Sectors

/-!
# Searching for sectors
-/

set_option linter.unusedSectionVars false

namespace Verif

open Spec Vec Real

theorem Vec.turns_self (u : Vec ℝ) : Turns u 0 u := ⟨1, one_pos, by rw [rotate_zero, one_smul]⟩

/-- Turns which are less than a full turn apart. -/
theorem Vec.Turns.close {u v : Vec ℝ} (hu : u ≠ 0) {α β : ℝ} (h1 : Turns u α v) (h2 : Turns u β v)
    (h3 : α - β < 2 * π) (h4 : β - α < 2 * π) : α = β := by
  wlog hle : β ≤ α generalizing α β
  · exact (this h2 h1 h4 h3 (le_of_not_ge hle)).symm
  have h5 := h1.trans h2.symm
  have := Turns.unique hu ⟨by linarith, by linarith⟩ ⟨le_refl 0, by linarith [pi_pos]⟩ h5 (turns_self u)
  linarith

theorem Vec.Turns.cross_eq {u v w : Vec ℝ} {α β : ℝ} (h1 : Turns u α v) (h2 : Turns u β w) :
    ∃ r, (u ≠ 0 → 0 < r) ∧ cross v w = r * sin (β - α) ∧ dot v w = r * cos (β - α) := by
  obtain ⟨r, hr, rfl⟩ := h1
  obtain ⟨s, hs, rfl⟩ := h2
  refine ⟨r * s * dot u u, fun hu => mul_pos (mul_pos hr hs) (dot_self_pos hu), ?_, ?_⟩
  · rw [cross_rotate]
  · rw [dot_rotate]

/-- The first turn in terms of the angle in [0, 2π). -/
theorem Spec.FirstTurn.eq {u v : Vec ℝ} (hu : u ≠ 0) {ρ : ℝ} (h0 : 0 ≤ ρ) (h1 : ρ < 2 * π) (hρ : Turns u ρ v) {ccw : CCW}
    {exclude : Bool} {α : ℝ} (h : FirstTurn u ccw v exclude α) :
    (ccw = .counterclockwise ∧ α = if ρ = 0 ∧ exclude = true then 2 * π else ρ) ∨
      (ccw = .clockwise ∧ α = if ρ = 0 ∧ exclude = false then 0 else ρ - 2 * π) := by
  obtain ⟨ht, hc⟩ := h
  have hp : Turns u (α + 2 * π) v := Turns.period.2 ht
  have hm : Turns u (α - 2 * π) v := by rw [← Turns.period, sub_add_cancel]; exact ht
  cases ccw <;> cases exclude <;> simp only at hc
  · right
    refine ⟨rfl, ?_⟩
    by_cases hz : ρ = 0
    · rw [if_pos ⟨hz, rfl⟩]
      subst hz
      exact ht.close hu hρ (by linarith) (by linarith)
    · rw [if_neg fun hc => hz hc.1]
      have : 0 < ρ := lt_of_le_of_ne h0 (Ne.symm hz)
      by_cases hα : α = 0
      · subst hα
        exact absurd (hρ.close hu ht (by linarith) (by linarith)) hz
      · have : α < 0 := lt_of_le_of_ne hc.2 hα
        linarith [hp.close hu hρ (by linarith) (by linarith)]
  · right
    refine ⟨rfl, ?_⟩
    rw [if_neg fun hc => by simp at hc]
    linarith [hp.close hu hρ (by linarith) (by linarith)]
  · left
    refine ⟨rfl, ?_⟩
    rw [if_neg fun hc => by simp at hc]
    exact ht.close hu hρ (by linarith) (by linarith)
  · left
    refine ⟨rfl, ?_⟩
    by_cases hz : ρ = 0
    · rw [if_pos ⟨hz, rfl⟩]
      subst hz
      linarith [hm.close hu hρ (by linarith) (by linarith)]
    · rw [if_neg fun hc => hz hc.1]
      have : 0 < ρ := lt_of_le_of_ne h0 (Ne.symm hz)
      exact ht.close hu hρ (by linarith) (by linarith)

namespace FlatTri

open Tri Function

variable {T : Type} [CommRing T] [LinearOrder T] [IsStrictOrderedRing T]
variable {K : Type*} [Field K] [LinearOrder K] [IsStrictOrderedRing K]
variable {f : T →+* ℝ} {S : FlatTri T} {V : Finset HE} {θ : HE → ℝ} {v : Vec T} {ρ : HE → ℝ} (A : Option (Approx T K))

/-- `fromHalfEdge(e).ccw(v) == COLLINEAR && fromHalfEdge(e).orientation(v) == SAME` -/
theorem Around.same_iff (h : Around f S V θ) (d : Dir f S V v ρ) {e : HE} (he : e ∈ V) :
    Vec.ccw A (S.vec e) v = .collinear ∧ Vec.orientation A (S.vec e) v = .same ↔ ρ e = 0 := by
  obtain ⟨h0, h1, h2⟩ := d e he
  obtain ⟨r, hr, e1, e2⟩ := (turns_self ((S.vec e).map f)).cross_eq h2
  have hr := hr (h.vec_ne he)
  rw [sub_zero] at e1 e2
  rw [cross_map] at e1
  rw [dot_map] at e2
  rw [ccw_eq, ccwExact_collinear, orientation_same]
  have c1 : cross (S.vec e) v = 0 ↔ sin (ρ e) = 0 := by
    rw [← map_eq_zero_iff f h.mono.injective, e1, mul_eq_zero]
    exact ⟨fun hc => hc.resolve_left hr.ne', Or.inr⟩
  have c2 : 0 < dot (S.vec e) v ↔ 0 < cos (ρ e) := by
    rw [← h.mono.lt_iff_lt, map_zero, e2]
    exact mul_pos_iff_of_pos_left hr
  rw [c1, c2, sin_zero_iff h0 h1]
  constructor
  · rintro ⟨hz, hc⟩
    exact (cos_sign hz).1.1 hc
  · intro hz
    exact ⟨Or.inl hz, (cos_sign (Or.inl hz)).1.2 hz⟩

/-- `sector(start, COUNTERCLOCKWISE, direction, exclude)` finds the first sector. -/
theorem Around.sector_ccw (h : Around f S V θ) (d : Dir f S V v ρ) (hv : v ≠ 0) {e : HE} (he : e ∈ V) (exclude : Bool) :
    ∃ n N, (∀ i < n, S.inSector A (S.tri.nextAtVertex^[i]
        (if ρ e = 0 ∧ exclude = true then S.tri.nextAtVertex e else e)) v = false) ∧
      S.inSector A (S.tri.nextAtVertex^[n] (if ρ e = 0 ∧ exclude = true then S.tri.nextAtVertex e else e)) v = true ∧
      ∀ fuel ≥ N, S.sector A fuel e .counterclockwise v exclude =
        some (.ok (S.tri.nextAtVertex^[n] (if ρ e = 0 ∧ exclude = true then S.tri.nextAtVertex e else e))) := by
  have hs := h.same_iff A d he
  by_cases hz : ρ e = 0
  · have hs' := hs.2 hz
    cases exclude with
    | false =>
      rw [if_neg (by simp)]
      refine ⟨0, 0, fun i hi => absurd hi (by omega), ?_, fun fuel _ => ?_⟩
      · exact (h.inSector_iff_lt A d he).2 (by rw [hz]; exact (h.pos he).1)
      · unfold sector
        rw [if_neg (by decide), if_pos ⟨hs', rfl⟩]
        rfl
    | true =>
      rw [if_pos ⟨hz, rfl⟩]
      obtain ⟨n, N, h1, h2, h3⟩ := h.walk_next A hv (h.next_mem he)
      refine ⟨n, N, h1, h2, fun fuel hfuel => ?_⟩
      unfold sector
      simp only
      rw [if_neg (by decide), if_neg (by simp), if_pos trivial, if_pos hs', if_neg (by decide)]
      exact h3 fuel hfuel
  · rw [if_neg (fun hc => hz hc.1)]
    obtain ⟨n, N, h1, h2, h3⟩ := h.walk_next A hv he
    refine ⟨n, N, h1, h2, fun fuel hfuel => ?_⟩
    unfold sector
    simp only
    rw [if_neg (by decide), if_neg (fun hc => hz (hs.1 hc.1)), if_pos trivial, if_neg (fun hc => hz (hs.1 hc))]
    exact h3 fuel hfuel

/-- `sector(start, CLOCKWISE, direction, exclude)` finds the first sector. -/
theorem Around.sector_cw (h : Around f S V θ) (d : Dir f S V v ρ) (hv : v ≠ 0) {e : HE} (he : e ∈ V) (exclude : Bool) :
    ∃ n N, (∀ i < n, S.inSector A (S.tri.previousAtVertex^[i]
        (if ρ e = 0 ∧ exclude = true then S.tri.previousAtVertex e else e)) v = false) ∧
      S.inSector A (S.tri.previousAtVertex^[n]
        (if ρ e = 0 ∧ exclude = true then S.tri.previousAtVertex e else e)) v = true ∧
      ∀ fuel ≥ N, S.sector A fuel e .clockwise v exclude =
        some (.ok (S.tri.previousAtVertex^[n] (if ρ e = 0 ∧ exclude = true then S.tri.previousAtVertex e else e))) := by
  have hs := h.same_iff A d he
  by_cases hz : ρ e = 0
  · have hs' := hs.2 hz
    cases exclude with
    | false =>
      rw [if_neg (by simp)]
      refine ⟨0, 0, fun i hi => absurd hi (by omega), ?_, fun fuel _ => ?_⟩
      · exact (h.inSector_iff_lt A d he).2 (by rw [hz]; exact (h.pos he).1)
      · unfold sector
        rw [if_neg (by decide), if_pos ⟨hs', rfl⟩]
        rfl
    | true =>
      rw [if_pos ⟨hz, rfl⟩]
      obtain ⟨n, N, h1, h2, h3⟩ := h.walk_prev A hv (h.prev_mem he)
      refine ⟨n, N, h1, h2, fun fuel hfuel => ?_⟩
      unfold sector
      simp only
      rw [if_neg (by decide), if_neg (by simp), if_neg (by decide), if_pos hs', if_pos trivial]
      exact h3 fuel hfuel
  · rw [if_neg (fun hc => hz hc.1)]
    obtain ⟨n, N, h1, h2, h3⟩ := h.walk_prev A hv he
    refine ⟨n, N, h1, h2, fun fuel hfuel => ?_⟩
    unfold sector
    simp only
    rw [if_neg (by decide), if_neg (fun hc => hz (hs.1 hc.1)), if_neg (by decide), if_neg (fun hc => hz (hs.1 hc))]
    exact h3 fuel hfuel

/-- Walking back over half edges a direction is clockwise from, `while (ccw == CLOCKWISE) e = previousAtVertex(e)`. -/
theorem Around.walk_back (h : Around f S V θ) (hv : v ≠ 0) {e : HE} (he : e ∈ V) (hc : S.clockwise A v e = true) :
    ∃ n, (∀ i < n, S.inSector A (S.tri.previousAtVertex^[i + 1] e) v = false) ∧
      S.inSector A (S.tri.previousAtVertex^[n + 1] e) v = true ∧
      ∀ fuel ≥ n + 2, walk S.tri.previousAtVertex (S.clockwise A v) fuel e = some (S.tri.previousAtVertex^[n + 1] e) := by
  obtain ⟨s, hs, hsec⟩ := h.exists_sector A ⟨e, he⟩ hv
  rw [inSector_eq_clockwise, Bool.and_eq_true, Bool.not_eq_true'] at hsec
  obtain ⟨k, hk⟩ := h.reach_prev he hs
  obtain ⟨m, m1, m2, m3⟩ := walk_spec (next := S.tri.previousAtVertex) (condition := S.clockwise A v) (e := e)
    ⟨k, by rw [hk]; exact hsec.1⟩
  cases m with
  | zero =>
    change S.clockwise A v e = false at m2
    rw [hc] at m2; cases m2
  | succ m =>
    refine ⟨m, fun i hi => ?_, ?_, fun fuel hfuel => m3 fuel (by omega)⟩
    · rw [inSector_eq_clockwise, m1 (i + 1) (by omega)]; rfl
    · rw [inSector_eq_clockwise, m2, iterate_succ_apply', next_prev h.flat, m1 m (by omega)]; rfl

/-- Walking up to the first half edge a direction is clockwise from. -/
theorem Around.walk_ahead (h : Around f S V θ) (hv : v ≠ 0) {e : HE} (he : e ∈ V) (hc : S.clockwise A v e = false) :
    ∃ n, (∀ i < n, S.inSector A (S.tri.nextAtVertex^[i] e) v = false) ∧
      S.inSector A (S.tri.nextAtVertex^[n] e) v = true ∧
      ∀ fuel ≥ n + 2, walk S.tri.nextAtVertex (fun e => !S.clockwise A v e) fuel e =
        some (S.tri.nextAtVertex^[n + 1] e) := by
  obtain ⟨s, hs, hsec⟩ := h.exists_sector A ⟨e, he⟩ hv
  rw [inSector_eq_clockwise, Bool.and_eq_true, Bool.not_eq_true'] at hsec
  obtain ⟨k, hk⟩ := h.reach he (h.next_mem hs)
  obtain ⟨m, m1, m2, m3⟩ := walk_spec (next := S.tri.nextAtVertex) (condition := fun e => !S.clockwise A v e) (e := e)
    ⟨k, by rw [hk, hsec.2]; rfl⟩
  cases m with
  | zero =>
    change (!S.clockwise A v e) = false at m2
    rw [hc] at m2; cases m2
  | succ m =>
    have m1' : ∀ i < m + 1, S.clockwise A v (S.tri.nextAtVertex^[i] e) = false := fun i hi => by simpa using m1 i hi
    have m2' : S.clockwise A v (S.tri.nextAtVertex^[m + 1] e) = true := by simpa using m2
    refine ⟨m, fun i hi => ?_, ?_, fun fuel hfuel => m3 fuel (by omega)⟩
    · rw [inSector_eq_clockwise, ← iterate_succ_apply' S.tri.nextAtVertex, m1' (i + 1) (by omega), Bool.and_false]
    · rw [inSector_eq_clockwise, m1' m (by omega), ← iterate_succ_apply' S.tri.nextAtVertex, m2']; rfl

/-- Walking up to the first sector. -/
theorem Around.walk_sector (h : Around f S V θ) (hv : v ≠ 0) {e : HE} (he : e ∈ V) :
    ∃ n, (∀ i < n, S.inSector A (S.tri.nextAtVertex^[i] e) v = false) ∧
      S.inSector A (S.tri.nextAtVertex^[n] e) v = true ∧
      ∀ fuel ≥ n + 1, walk S.tri.nextAtVertex (fun e => !S.inSector A e v) fuel e = some (S.tri.nextAtVertex^[n] e) := by
  obtain ⟨s, hs, hsec⟩ := h.exists_sector A ⟨e, he⟩ hv
  obtain ⟨k, hk⟩ := h.reach he hs
  obtain ⟨m, m1, m2, m3⟩ := walk_spec (next := S.tri.nextAtVertex) (condition := fun e => !S.inSector A e v) (e := e)
    ⟨k, by rw [hk, hsec]; rfl⟩
  exact ⟨m, fun i hi => by simpa using m1 i hi, by simpa using m2, fun fuel hfuel => m3 fuel (by omega)⟩

theorem Around.clockwise_iff (h : Around f S V θ) (d : Dir f S V v ρ) {e : HE} (he : e ∈ V) :
    S.clockwise A v e = true ↔ π < ρ e := by
  obtain ⟨h0, h1, h2⟩ := d e he
  have hs := (h2.cross_sign (h.vec_ne he)).2
  rw [h.cross_neg, sin_neg_iff h0 h1] at hs
  unfold clockwise
  rw [decide_eq_true_eq, ccw_eq, ccwExact_clockwise, hs]

end FlatTri

end Verif
