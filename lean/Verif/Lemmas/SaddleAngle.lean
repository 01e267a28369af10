import Verif.Lemmas.SectorWalks
import Verif.Model.SaddleAngle
import Verif.Spec.Saddle

/-!
# Turning from a direction at a vertex to another one
-/

set_option linter.unusedSectionVars false

namespace Verif.FlatTri

open Verif Spec Tri Vec Real Function

variable {T : Type} [CommRing T] [LinearOrder T] [IsStrictOrderedRing T]
variable {K : Type*} [Field K] [LinearOrder K] [IsStrictOrderedRing K] (A : Option (Approx T K))
variable {f : T →+* ℝ} {S : FlatTri T} {V : Finset HE} {θ : HE → ℝ}

/-- Getting back to the same half edge takes at least a full turn. -/
theorem Around.back (h : Around f S V θ) {e : HE} (he : e ∈ V) {n : ℕ} (hn : 0 < n) (hb : S.tri.nextAtVertex^[n] e = e) :
    ∑ x ∈ V, θ x ≤ arc S θ e n := by
  obtain ⟨x, hx⟩ := h.orbit
  have ho := (hx e).1 he
  have hV' : ∀ y, y ∈ V ↔ S.tri.vertices.Orb e y := fun y =>
    (hx y).trans ⟨fun hy => (Perm.Orb.symm h.flat.coh.hv ho).trans hy, fun hy => ho.trans hy⟩
  rw [← Perm.orbit_sum h.flat.coh.hv hV' θ]
  change arc S θ e _ ≤ _
  have hle : minimalPeriod S.tri.vertices.fwd e ≤ n := IsPeriodicPt.minimalPeriod_le hn hb
  rcases hle.eq_or_lt with h1 | h1
  · rw [h1]
  · exact (h.arc_lt he h1).le

theorem Around.between (h : Around f S V θ) {e : HE} (he : e ∈ V) {m n : ℕ} (hmn : m < n)
    (hb : S.tri.nextAtVertex^[m] e = S.tri.nextAtVertex^[n] e) : arc S θ e m + ∑ x ∈ V, θ x ≤ arc S θ e n := by
  obtain ⟨k, rfl⟩ := Nat.exists_eq_add_of_lt hmn
  rw [add_assoc, arc_add]
  have := h.back (h.iterate_mem he m) (n := k + 1) (by omega)
    (by rw [← iterate_add_apply, hb]; congr 1; omega)
  linarith

theorem turn_iterate (h : Around f S V θ) {e : HE} (he : e ∈ V) (n : ℕ) :
    Turns ((S.vec e).map f) (arc S θ e n) ((S.vec (S.tri.nextAtVertex^[n] e)).map f) := by
  induction n with
  | zero => rw [arc_zero]; exact turns_self _
  | succ n ih =>
    rw [arc_succ, iterate_succ_apply']
    exact ih.trans (h.corners _ (h.iterate_mem he n)).2.2

/-! ### Signs -/

/-- The sign of the sine in the half turn with number `a`. -/
def halfTurn (a : ℕ) : CCW := if a % 2 = 0 then .counterclockwise else .clockwise

theorem halfTurn_succ (a : ℕ) : halfTurn (a + 1) = (halfTurn a).opposite := by
  unfold halfTurn
  rcases Nat.mod_two_eq_zero_or_one a with h | h
  · have h' : ¬ (a + 1) % 2 = 0 := by omega
    rw [if_pos h, if_neg h']; rfl
  · have h' : (a + 1) % 2 = 0 := by omega
    have h'' : ¬ a % 2 = 0 := by omega
    rw [if_pos h', if_neg h'']; rfl

theorem ccw_turn (hf : StrictMono f) {u v : Vec T} (hu : u.map f ≠ 0) {β : ℝ} (h : Turns (u.map f) β (v.map f)) :
    (Vec.ccw A u v = .counterclockwise ↔ 0 < sin β) ∧ (Vec.ccw A u v = .clockwise ↔ sin β < 0) ∧
      (Vec.ccw A u v = .collinear ↔ sin β = 0) := by
  have hc := h.cross_sign hu
  have e1 : ∀ x : T, 0 < f x ↔ 0 < x := fun x => by conv_lhs => rw [← map_zero f, hf.lt_iff_lt]
  have e2 : ∀ x : T, f x < 0 ↔ x < 0 := fun x => by conv_lhs => rw [← map_zero f, hf.lt_iff_lt]
  rw [cross_map, e1, e2] at hc
  rw [ccw_eq, ccwExact_ccw, ccwExact_clockwise, ccwExact_collinear]
  refine ⟨hc.1, hc.2, ?_⟩
  constructor
  · intro h0
    rcases lt_trichotomy (sin β) 0 with h1 | h1 | h1
    · exact absurd h0 (hc.2.2 h1).ne
    · exact h1
    · exact absurd h0 (hc.1.2 h1).ne'
  · intro h0
    rcases lt_trichotomy (cross u v) 0 with h1 | h1 | h1
    · exact absurd h0 (hc.2.1 h1).ne
    · exact h1
    · exact absurd h0 (hc.1.1 h1).ne'

theorem sin_half {β : ℝ} (a : ℕ) : sin β = (-1) ^ a * sin (β - a * π) := by
  rw [sin_sub_nat_mul_pi, ← mul_assoc, ← mul_pow]
  simp

theorem neg_one_pow_ite (a : ℕ) : (-1 : ℝ) ^ a = if a % 2 = 0 then 1 else -1 := by
  split
  · rename_i h; exact (Nat.even_iff.2 h).neg_one_pow
  · rename_i h; exact (Nat.odd_iff.2 (by omega)).neg_one_pow

/-- Counting half turns. -/
theorem count_half (hf : StrictMono f) {u v : Vec T} (hu : u.map f ≠ 0) {β β' : ℝ} (h : Turns (u.map f) β' (v.map f))
    {a : ℕ} (h1 : a * π ≤ β) (h2 : β < (a + 1) * π) (h3 : β < β') (h4 : β' < β + π) :
    let c := Vec.ccw A u v
    if c = .collinear ∨ c ≠ halfTurn a then (a + 1 : ℕ) * π ≤ β' ∧ β' < ((a + 1 : ℕ) + 1) * π
    else a * π ≤ β' ∧ β' < (a + 1) * π := by
  intro c
  obtain ⟨c1, c2, c3⟩ := ccw_turn A hf hu h
  have hs := sin_half (β := β') a
  rw [neg_one_pow_ite] at hs
  have hpi := pi_pos
  push_cast
  rcases lt_trichotomy β' ((a + 1) * π) with hlt | heq | hgt
  · have hp : 0 < sin (β' - a * π) := sin_pos_of_pos_of_lt_pi (by linarith) (by linarith)
    rw [if_neg]
    · exact ⟨by linarith, hlt⟩
    · push Not
      unfold halfTurn
      split at hs
      · rename_i ha
        rw [if_pos ha]
        have : c = .counterclockwise := c1.2 (by linarith)
        exact ⟨by rw [this]; decide, this⟩
      · rename_i ha
        rw [if_neg ha]
        have : c = .clockwise := c2.2 (by linarith)
        exact ⟨by rw [this]; decide, this⟩
  · have hp : sin (β' - a * π) = 0 := by rw [show β' - a * π = π by linarith, sin_pi]
    rw [hp, mul_zero] at hs
    rw [if_pos (Or.inl (c3.2 hs))]
    exact ⟨heq.ge, by linarith⟩
  · have hp : sin (β' - a * π) < 0 := by
      have : 0 < sin (β' - a * π - π) := sin_pos_of_pos_of_lt_pi (by linarith) (by linarith)
      rw [sin_sub_pi] at this
      linarith
    rw [if_pos]
    · exact ⟨hgt.le, by linarith⟩
    · right
      unfold halfTurn
      split at hs
      · rename_i ha
        rw [if_pos ha]
        have : c = .clockwise := c2.2 (by linarith)
        rw [this]; decide
      · rename_i ha
        rw [if_neg ha]
        have : c = .counterclockwise := c1.2 (by linarith)
        rw [this]; decide

/-! ### The loop -/

/-- The loop in the state with number `k`: it has turned to the half edge with number `k`, or not turned at all. `off` is
the angle to `turned` in the corner and `β` is the total angle so far. -/
theorem Around.turnLoop (h : Around f S V θ) {e e' : HE} (he : e ∈ V) {u v : Vec T} {σ τ α : ℝ} (hu : InCorner f S θ e σ u)
    (hv : InCorner f S θ e' τ v) (hα : α < ∑ x ∈ V, θ x) {n : ℕ} (hn : S.tri.nextAtVertex^[n] e = e')
    (hα0 : 0 ≤ α) (ha : σ + α = arc S θ e n + τ) {k : ℕ} (hk : k ≤ n) {off : ℝ} {turned : Vec T}
    (ht : InCorner f S θ (S.tri.nextAtVertex^[k] e) off turned)
    (ho : (k = 0 ∧ off = σ) ∨ (0 < k ∧ off = 0)) {a : ℕ} (h1 : a * π ≤ arc S θ e k + off - σ)
    (h2 : arc S θ e k + off - σ < (a + 1) * π) {fuel : ℕ} (hfuel : n - k + 2 ≤ fuel) :
    ∃ a' : ℕ, S.turnLoop A u e' v fuel (S.tri.nextAtVertex^[k] e) turned a (halfTurn a) = some a' ∧ a' * π ≤ α ∧
      α < (a' + 1) * π := by
  have hpi := pi_pos
  have hune : u.map f ≠ 0 := by
    obtain ⟨r, hr, hw⟩ := hu.2.2
    rw [hw]
    intro hc
    have := hu.2.2.symm
    rw [hw, hc] at this
    obtain ⟨s, hs, hw'⟩ := this
    exact h.vec_ne he (by rw [hw']; ext <;> simp [rotate])
  obtain ⟨fuel, rfl⟩ : ∃ m, fuel = m + 1 := ⟨fuel - 1, by omega⟩
  induction hd : n - k generalizing k off turned a fuel with
  | zero =>
    have hkn : k = n := by omega
    subst hkn
    rw [hn] at ht ⊢
    have he' : e' ∈ V := hn ▸ h.iterate_mem he k
    have hp' := h.pos he'
    -- the offset is not past the target
    have hoff : off ≤ τ := by
      rcases ho with ⟨rfl, rfl⟩ | ⟨-, rfl⟩
      · rw [arc_zero] at ha; linarith
      · exact hv.1
    have hto : Turns (turned.map f) (τ - off) (v.map f) := by
      have := ht.2.2.symm.trans hv.2.2
      rwa [show -off + τ = τ - off by ring] at this
    have hvt : Turns (u.map f) α (v.map f) := by
      have := (hu.2.2.symm.trans (turn_iterate h he k)).trans (by rw [hn]; exact hv.2.2)
      rwa [show -σ + arc S θ e k + τ = α by linarith] at this
    have htne : turned.map f ≠ 0 := by
      obtain ⟨r, hr, hw⟩ := ht.2.2
      intro hc
      have := ht.2.2.symm
      rw [hc] at this
      obtain ⟨s, hs, hw'⟩ := this
      exact h.vec_ne he' (by rw [hw']; ext <;> simp [rotate])
    obtain ⟨c1, c2, c3⟩ := ccw_turn A h.mono htne hto
    rcases hoff.eq_or_lt with heq | hlt
    · refine ⟨a, ?_, by linarith, by linarith⟩
      have : Vec.ccw A turned v = .collinear := c3.2 (by rw [heq, sub_self, sin_zero])
      unfold FlatTri.turnLoop
      rw [if_neg (by simp [this])]
    · have hc : Vec.ccw A turned v = .counterclockwise :=
        c1.2 (sin_pos_of_pos_of_lt_pi (by linarith) (by linarith [ht.1, hv.2.1]))
      have hcount := count_half A h.mono hune hvt h1 h2 (by linarith) (by linarith [hv.2.1, ht.1])
      have hself : Vec.ccw A v v = .collinear := by
        rw [ccw_eq, ccwExact_collinear]; unfold cross; ring
      obtain ⟨fuel, rfl⟩ : ∃ m, fuel = m + 1 := ⟨fuel - 1, by omega⟩
      unfold FlatTri.turnLoop
      simp only [hc, ne_eq, reduceCtorEq, not_false_eq_true, or_true, if_true, and_self, not_true_eq_false]
      simp only at hcount
      by_cases hif : Vec.ccw A u v = .collinear ∨ Vec.ccw A u v ≠ halfTurn a
      · rw [if_pos hif] at hcount ⊢
        refine ⟨a + 1, ?_, hcount⟩
        unfold FlatTri.turnLoop
        rw [if_neg (by simp [hself])]
      · rw [if_neg hif] at hcount ⊢
        refine ⟨a, ?_, hcount⟩
        unfold FlatTri.turnLoop
        rw [if_neg (by simp [hself])]
  | succ d ih =>
    have hkn : k < n := by omega
    have hm := h.iterate_mem he k
    have hp := h.pos hm
    -- we are not at the target yet
    have hnot : S.tri.nextAtVertex^[k] e = e' → Vec.ccw A turned v = .clockwise := by
      intro heq
      have hb := h.between he hkn (heq.trans hn.symm)
      rcases ho with ⟨rfl, rfl⟩ | ⟨hk0, rfl⟩
      · rw [arc_zero] at hb
        have heq' : e = e' := heq
        subst heq'
        have hlt : τ < off := by linarith
        have hto : Turns (turned.map f) (τ - off) (v.map f) := by
          have := ht.2.2.symm.trans hv.2.2
          rwa [show -off + τ = τ - off by ring] at this
        have htne : turned.map f ≠ 0 := by
          intro hc
          have := ht.2.2.symm
          rw [hc] at this
          obtain ⟨s, hs, hw'⟩ := this
          exact h.vec_ne he (by
            have hw'' : (S.vec e).map f = _ := hw'
            rw [hw'']; ext <;> simp [rotate])
        obtain ⟨c1, c2, c3⟩ := ccw_turn A h.mono htne hto
        refine c2.2 (sin_neg_of_neg_of_neg_pi_lt (by linarith) ?_)
        have := ht.2.1
        have h3 : off < θ e := this
        have h4 := h.pos he
        linarith [hv.1]
      · exfalso
        have h3 := h.arc_lt he hk0
        have h4 : arc S θ e 1 ≤ arc S θ e k := by
          rcases (show 1 ≤ k by omega).eq_or_lt with h5 | h5
          · rw [h5]
          · exact (h.arc_lt he h5).le
        rw [arc_one] at h4
        linarith [hu.2.1, hv.1]
    have hnext : Turns (u.map f) (arc S θ e (k + 1) - σ) ((S.vec (S.tri.nextAtVertex^[k + 1] e)).map f) := by
      have := hu.2.2.symm.trans (turn_iterate h he (k + 1))
      rwa [show -σ + arc S θ e (k + 1) = arc S θ e (k + 1) - σ by ring] at this
    have hcount := count_half A h.mono hune hnext h1 h2
      (by rw [arc_succ]; linarith [ht.2.1]) (by rw [arc_succ]; linarith [ht.1])
    have hstay : ¬ (S.tri.nextAtVertex^[k] e = e' ∧ Vec.ccw A turned v ≠ .clockwise) := fun hc => hc.2 (hnot hc.1)
    have hcond : S.tri.nextAtVertex^[k] e ≠ e' ∨ Vec.ccw A turned v ≠ .collinear := by
      by_cases heq : S.tri.nextAtVertex^[k] e = e'
      · right; rw [hnot heq]; decide
      · exact Or.inl heq
    unfold FlatTri.turnLoop
    rw [if_pos hcond]
    simp only [hstay, if_false]
    rw [← iterate_succ_apply' S.tri.nextAtVertex k e]
    simp only at hcount
    have hcorner : InCorner f S θ (S.tri.nextAtVertex^[k + 1] e) 0 (S.vec (S.tri.nextAtVertex^[k + 1] e)) :=
      ⟨le_refl _, (h.pos (h.iterate_mem he (k + 1))).1, turns_self _⟩
    obtain ⟨fuel, rfl⟩ : ∃ m, fuel = m + 1 := ⟨fuel - 1, by omega⟩
    by_cases hif : Vec.ccw A u (S.vec (S.tri.nextAtVertex^[k + 1] e)) = .collinear ∨
        Vec.ccw A u (S.vec (S.tri.nextAtVertex^[k + 1] e)) ≠ halfTurn a
    · rw [if_pos hif] at hcount ⊢
      rw [← halfTurn_succ]
      exact ih (by omega) hcorner (Or.inr ⟨by omega, rfl⟩) (by linarith [hcount.1]) (by linarith [hcount.2]) fuel
        (by omega) (by omega)
    · rw [if_neg hif] at hcount ⊢
      exact ih (by omega) hcorner (Or.inr ⟨by omega, rfl⟩) (by linarith [hcount.1]) (by linarith [hcount.2]) fuel
        (by omega) (by omega)

end Verif.FlatTri
