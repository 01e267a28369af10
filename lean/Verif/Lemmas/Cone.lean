import Verif.Lemmas.Flat
import Verif.Lemmas.Sector
import Mathlib.Dynamics.PeriodicPts.Defs

set_option linter.unusedSectionVars false

/-!
# Angles at vertices of flat triangulations
-/

namespace Verif

namespace Vec

open Real

theorem rotate_add (α β : ℝ) (u : Vec ℝ) : rotate (α + β) u = rotate β (rotate α u) := by
  unfold rotate
  rw [cos_add, sin_add]
  ext <;> simp only <;> ring

theorem rotate_smul (r α : ℝ) (u : Vec ℝ) : rotate α (r • u) = r • rotate α u := by
  ext <;> simp only [rotate, smul_x, smul_y] <;> ring

theorem rotate_neg (α : ℝ) (u : Vec ℝ) : rotate α (-u) = -rotate α u := by
  ext <;> simp only [rotate, neg_x, neg_y] <;> ring

theorem Turns.trans {u v w : Vec ℝ} {α β : ℝ} (h1 : Turns u α v) (h2 : Turns v β w) : Turns u (α + β) w := by
  obtain ⟨r, hr, rfl⟩ := h1
  obtain ⟨s, hs, rfl⟩ := h2
  refine ⟨s * r, mul_pos hs hr, ?_⟩
  rw [rotate_smul, ← rotate_add, mul_smul]

theorem Turns.neg {u v : Vec ℝ} {α : ℝ} (h : Turns u α v) : Turns (-u) α (-v) := by
  obtain ⟨r, hr, rfl⟩ := h
  exact ⟨r, hr, by rw [rotate_neg, smul_neg]⟩

theorem Turns.period {u v : Vec ℝ} {α : ℝ} : Turns u (α + 2 * π) v ↔ Turns u α v := by
  have : ∀ w, rotate (α + 2 * π) w = rotate α w := by
    intro w
    unfold rotate
    rw [cos_add_two_pi, sin_add_two_pi]
  unfold Turns
  simp only [this]

theorem turns_neg_self (u : Vec ℝ) : Turns u π (-u) := by
  refine ⟨1, one_pos, ?_⟩
  ext <;> simp [rotate]

theorem Turns.symm {u v : Vec ℝ} {α : ℝ} (h : Turns u α v) : Turns v (-α) u := by
  obtain ⟨r, hr, rfl⟩ := h
  refine ⟨r⁻¹, inv_pos.2 hr, ?_⟩
  rw [rotate_smul, ← rotate_add, add_neg_cancel, rotate_zero, smul_smul, inv_mul_cancel₀ hr.ne', one_smul]

/-- Three turns by less than half a turn each which add up to a half turn, modulo full turns. -/
theorem turns_opposite {u : Vec ℝ} (hu : u ≠ 0) {α : ℝ} (h0 : 0 ≤ α) (h1 : α < 3 * π) (h : Turns u α (-u)) : α = π := by
  by_cases h2 : α < 2 * π
  · exact Turns.unique hu ⟨h0, h2⟩ ⟨pi_pos.le, by linarith [pi_pos]⟩ h (turns_neg_self u)
  · have h3 : Turns u (α - 2 * π) (-u) := by
      rw [← Turns.period, sub_add_cancel]; exact h
    have := Turns.unique hu ⟨by linarith, by linarith [pi_pos]⟩ ⟨pi_pos.le, by linarith [pi_pos]⟩ h3 (turns_neg_self u)
    linarith

/-- The sign of the cross product in terms of the angle. -/
theorem Turns.cross_sign {u v : Vec ℝ} (hu : u ≠ 0) {α : ℝ} (h : Turns u α v) :
    (0 < cross u v ↔ 0 < sin α) ∧ (cross u v < 0 ↔ sin α < 0) := by
  obtain ⟨r, hr, rfl⟩ := h
  have hd := dot_self_pos hu
  have e : cross u (r • rotate α u) = r * dot u u * sin α := by
    have := cross_rotate u 0 α 1 r
    rw [rotate_zero, one_smul, one_mul, sub_zero] at this
    exact this
  have hp := mul_pos hr hd
  rw [e]
  refine ⟨mul_pos_iff_of_pos_left hp, ?_⟩
  rw [← neg_pos, ← mul_neg, mul_pos_iff_of_pos_left hp, neg_pos]

theorem Turns.lt_pi {u v : Vec ℝ} (hu : u ≠ 0) {α : ℝ} (h : Turns u α v) (h0 : 0 ≤ α) (h1 : α < 2 * π)
    (hc : 0 < cross u v) : 0 < α ∧ α < π := (sin_pos_iff h0 h1).1 (h.cross_sign hu |>.1.1 hc)

/-- How the angle up to a direction `w` changes when turning past it. -/
theorem Turns.gap {u v w : Vec ℝ} (hu : u ≠ 0) (hv : v ≠ 0) {θ ρ σ : ℝ} (h : Turns u θ v) (h0 : 0 < θ) (h1 : θ < π)
    (hρ : Turns u ρ w) (hρ0 : 0 ≤ ρ) (hρ1 : ρ < 2 * π) (hσ : Turns v σ w) (hσ0 : 0 ≤ σ) (hσ1 : σ < 2 * π) :
    θ = ρ - σ + if ¬ cross u w < 0 ∧ cross v w < 0 then 2 * π else 0 := by
  have hsum := h.trans hσ
  have hs1 := (hρ.cross_sign hu).2
  have hs2 := (hσ.cross_sign hv).2
  rw [sin_neg_iff hρ0 hρ1] at hs1
  rw [sin_neg_iff hσ0 hσ1] at hs2
  simp only [hs1, hs2]
  by_cases hlt : θ + σ < 2 * π
  · have e := Turns.unique hu ⟨by linarith, hlt⟩ ⟨hρ0, hρ1⟩ hsum hρ
    rw [if_neg (by rintro ⟨h2, h3⟩; linarith)]
    linarith
  · have e : θ + σ - 2 * π = ρ := by
      refine Turns.unique hu ⟨by linarith, by linarith [pi_pos]⟩ ⟨hρ0, hρ1⟩ ?_ hρ
      rw [← Turns.period, sub_add_cancel]
      exact hsum
    rw [if_pos ⟨by linarith, by linarith⟩]
    linarith

end Vec

/-! ### Orbits -/

namespace Perm

theorem orbit_sum_fwd {M : Type*} [AddCommMonoid M] {p : Perm} (hp : p.WF) {x : HE} {V : Finset HE}
    (hV : ∀ y, y ∈ V ↔ p.Orb x y) (g : HE → M) : ∑ e ∈ V, g (p.fwd e) = ∑ e ∈ V, g e := by
  refine Finset.sum_nbij' p.fwd p.inv ?_ ?_ ?_ ?_ ?_
  · intro e he
    rw [hV] at *
    exact he.trans (Orb.step p e)
  · intro e he
    rw [hV] at *
    refine he.trans (Orb.symm hp ?_)
    have := Orb.step p (p.inv e)
    rwa [hp.right] at this
  · intro e _; exact hp.left e
  · intro e _; exact hp.right e
  · intro e _; rfl

theorem Orb.periodic {p : Perm} (hp : p.WF) (x : HE) : x ∈ Function.periodicPts p.fwd := by
  obtain ⟨k, hk⟩ := Orb.symm hp (Orb.step p x)
  exact ⟨k + 1, Nat.succ_pos k, hk⟩

/-- The half edges in an orbit, in order. -/
theorem orbit_sum {M : Type*} [AddCommMonoid M] {p : Perm} (hp : p.WF) {x : HE} {V : Finset HE}
    (hV : ∀ y, y ∈ V ↔ p.Orb x y) (g : HE → M) :
    ∑ i ∈ Finset.range (Function.minimalPeriod p.fwd x), g (p.fwd^[i] x) = ∑ e ∈ V, g e := by
  have hinj : Set.InjOn (fun i => p.fwd^[i] x) (Finset.range (Function.minimalPeriod p.fwd x)) := by
    intro i hi j hj hij
    rw [Finset.coe_range, Set.mem_Iio] at hi hj
    exact Function.iterate_injOn_Iio_minimalPeriod hi hj hij
  have hVe : V = (Finset.range (Function.minimalPeriod p.fwd x)).image fun i => p.fwd^[i] x := by
    ext y
    rw [hV, Finset.mem_image]
    constructor
    · rintro ⟨k, rfl⟩
      refine ⟨k % Function.minimalPeriod p.fwd x, ?_, Function.iterate_mod_minimalPeriod_eq⟩
      rw [Finset.mem_range]
      exact Nat.mod_lt _ (Function.minimalPeriod_pos_of_mem_periodicPts (Orb.periodic hp x))
    · rintro ⟨k, -, rfl⟩
      exact ⟨k, rfl⟩
  rw [hVe, Finset.sum_image hinj]

end Perm

theorem Tri.VertexesOk.sum {M : Type*} [AddCommMonoid M] {C : Tri} (h : C.Coherent) (hV : C.VertexesOk) (g : HE → M) :
    (C.vertexes.map fun V => ∑ e ∈ V, g e).sum = ∑ e ∈ Finset.range C.size, g e := by
  rw [← List.sum_toFinset _ hV.nodup]
  have : Finset.range C.size = C.vertexes.toFinset.biUnion id := by
    ext x
    rw [Finset.mem_range, Finset.mem_biUnion]
    constructor
    · intro hx
      obtain ⟨V, h1, h2⟩ := hV.cover x hx
      exact ⟨V, List.mem_toFinset.2 h1, h2⟩
    · rintro ⟨V, h1, h2⟩
      obtain ⟨y, hy, hy'⟩ := hV.orbit V (List.mem_toFinset.1 h1)
      exact ((hy' x).1 h2).lt h.hv hy
  rw [this, Finset.sum_biUnion]
  · rfl
  · intro V h1 W h2 hne
    rw [Finset.mem_coe, List.mem_toFinset] at h1 h2
    change Disjoint V W
    rw [Finset.disjoint_left]
    intro x hx hx'
    apply hne
    obtain ⟨y, -, hy'⟩ := hV.orbit V h1
    obtain ⟨z, -, hz'⟩ := hV.orbit W h2
    ext w
    rw [hy', hz']
    have k1 := (hy' x).1 hx
    have k2 := (hz' x).1 hx'
    exact ⟨fun hw => k2.trans ((Perm.Orb.symm h.hv k1).trans hw), fun hw => k1.trans ((Perm.Orb.symm h.hv k2).trans hw)⟩

namespace FlatTri

open Spec Tri Vec Real

variable {T : Type} [CommRing T] [LinearOrder T] [IsStrictOrderedRing T]
variable {K : Type*} [Field K] [LinearOrder K] [IsStrictOrderedRing K]

theorem Flat.vec_ne {S : FlatTri T} (h : S.Flat) {e : HE} (he : S.tri.faces.fwd e ≠ e) : S.vec e ≠ 0 := by
  intro h0
  have := h.oriented e he
  rw [h0, cross_zero_left] at this
  exact lt_irrefl _ this

/-- The corner between two consecutive half edges at a vertex. -/
theorem Flat.corner {S : FlatTri T} (h : S.Flat) {e : HE} (he : S.tri.faces.fwd e ≠ e) :
    S.vec (S.tri.vertices.fwd e) = S.vec e + S.vec (S.tri.faces.fwd e) ∧
      0 < cross (S.vec e) (S.vec (S.tri.vertices.fwd e)) := by
  have h1 := h.coh.link' he
  have hl := h.coh.lt_of_not_boundary (h.fwd_ne (h.fwd_ne he))
  have hi : S.tri.faces.inv e = S.tri.faces.fwd (S.tri.faces.fwd e) := by
    rw [← h.coh.hf.left (S.tri.faces.fwd (S.tri.faces.fwd e)), h.coh.tri]
  have hv : S.vec (S.tri.vertices.fwd e) = S.vec e + S.vec (S.tri.faces.fwd e) := by
    rw [h1, hi, h.odd _ hl, neg_eq_iff_add_eq_zero, ← h.closed e he]
    abel
  refine ⟨hv, ?_⟩
  rw [hv, cross_add_right, cross_self, zero_add]
  exact h.oriented e he

theorem inSector_iff (A : Option (Approx T K)) (S : FlatTri T) (e : HE) (v : Vec T) :
    S.inSector A e v = true ↔ ¬ cross (S.vec e) v < 0 ∧ cross (S.vec (S.tri.vertices.fwd e)) v < 0 := by
  unfold inSector
  rw [Bool.and_eq_true, decide_eq_true_eq, decide_eq_true_eq, ccw_eq, ccw_eq, ne_eq, ccwExact_clockwise,
    ccwExact_clockwise]
  rfl

/-- The angles at a vertex add up to as many full turns as there are sectors which contain a given direction. -/
theorem Flat.cone {S : FlatTri T} (h : S.Flat) (f : T →+* ℝ) (hf : StrictMono f) (A : Option (Approx T K)) {x : HE}
    {V : Finset HE} (hV : ∀ y, y ∈ V ↔ S.tri.vertices.Orb x y) (hb : ∀ e ∈ V, S.tri.faces.fwd e ≠ e) {v : Vec T}
    (hv : v ≠ 0) {θ : HE → ℝ} (h0 : ∀ e ∈ V, 0 ≤ θ e ∧ θ e < 2 * π)
    (hθ : ∀ e ∈ V, Turns ((S.vec e).map f) (θ e) ((S.vec (S.tri.vertices.fwd e)).map f)) :
    ∑ e ∈ V, θ e = 2 * π * (V.filter fun e => S.inSector A e v).card := by
  have hne : ∀ e ∈ V, (S.vec e).map f ≠ 0 := fun e he => map_ne_zero f hf (h.vec_ne (hb e he))
  have hρ : ∀ e, ∃ t, e ∈ V → 0 ≤ t ∧ t < 2 * π ∧ Turns ((S.vec e).map f) t (v.map f) := by
    intro e
    by_cases he : e ∈ V
    · obtain ⟨t, h1, h2, h3⟩ := exists_turns (hne e he) (map_ne_zero f hf hv)
      exact ⟨t, fun _ => ⟨h1, h2, h3⟩⟩
    · exact ⟨0, fun hc => absurd hc he⟩
  choose ρ hρ using hρ
  have hstep : ∀ e ∈ V, S.tri.vertices.fwd e ∈ V := by
    intro e he
    rw [hV] at *
    exact he.trans (Perm.Orb.step _ e)
  have neg : ∀ u w : Vec T, cross (u.map f) (w.map f) < 0 ↔ cross u w < 0 := by
    intro u w
    rw [cross_map, ← map_zero f, hf.lt_iff_lt]
  have key : ∀ e ∈ V, θ e = ρ e - ρ (S.tri.vertices.fwd e) + if S.inSector A e v then 2 * π else 0 := by
    intro e he
    obtain ⟨a1, a2, a3⟩ := hρ e he
    obtain ⟨b1, b2, b3⟩ := hρ _ (hstep e he)
    have hc : 0 < cross ((S.vec e).map f) ((S.vec (S.tri.vertices.fwd e)).map f) := by
      rw [cross_map, ← map_zero f, hf.lt_iff_lt]
      exact (h.corner (hb e he)).2
    obtain ⟨c1, c2⟩ := (hθ e he).lt_pi (hne e he) (h0 e he).1 (h0 e he).2 hc
    have := (hθ e he).gap (hne e he) (hne _ (hstep e he)) c1 c2 a3 a1 a2 b3 b1 b2
    simp only [neg] at this
    rw [this]
    congr 1
    by_cases hs : S.inSector A e v = true
    · rw [if_pos hs, if_pos ((inSector_iff A S e v).1 hs)]
    · rw [if_neg hs, if_neg (fun hc => hs ((inSector_iff A S e v).2 hc))]
  rw [Finset.sum_congr rfl key, Finset.sum_add_distrib, Finset.sum_sub_distrib, Perm.orbit_sum_fwd h.coh.hv hV ρ,
    sub_self, zero_add, ← Finset.sum_filter, Finset.sum_const, nsmul_eq_mul, mul_comm]

/-- The corners at a vertex have angles. -/
theorem Flat.exists_corners {S : FlatTri T} (h : S.Flat) {f : T →+* ℝ} (hf : StrictMono f) {x : HE} {V : Finset HE}
    (hV : ∀ y, y ∈ V ↔ S.tri.vertices.Orb x y) (hb : ∀ e ∈ V, S.tri.faces.fwd e ≠ e) : ∃ θ, Corners f S V θ := by
  have hθ : ∀ e, ∃ t, e ∈ V → 0 ≤ t ∧ t < 2 * π ∧
      Turns ((S.vec e).map f) t ((S.vec (S.tri.nextAtVertex e)).map f) := by
    intro e
    by_cases he : e ∈ V
    · have hstep : S.tri.vertices.fwd e ∈ V := by rw [hV] at *; exact he.trans (Perm.Orb.step _ e)
      obtain ⟨t, h1, h2, h3⟩ := exists_turns (map_ne_zero f hf (h.vec_ne (hb e he)))
        (map_ne_zero f hf (h.vec_ne (hb _ hstep)))
      exact ⟨t, fun _ => ⟨h1, h2, h3⟩⟩
    · exact ⟨0, fun hc => absurd hc he⟩
  choose θ hθ using hθ
  exact ⟨θ, hθ⟩

theorem angleLoop_spec {S : FlatTri T} (hv : S.tri.vertices.WF) (first : HE) (k : ℕ)
    (hk : k < Function.minimalPeriod S.tri.vertices.fwd first) (fuel : ℕ)
    (hfuel : Function.minimalPeriod S.tri.vertices.fwd first - k ≤ fuel) (acc : ℕ) :
    S.angleLoop first fuel (S.tri.vertices.fwd^[k] first) acc =
      some (acc + ∑ i ∈ Finset.Ico k (Function.minimalPeriod S.tri.vertices.fwd first),
        if (S.vec (S.tri.vertices.fwd^[i] first)).x ≥ 0 ∧
          (S.vec (S.tri.vertices.fwd (S.tri.vertices.fwd^[i] first))).x < 0 then 1 else 0) := by
  induction fuel generalizing k acc with
  | zero => omega
  | succ fuel ih =>
    unfold angleLoop
    change (if S.tri.vertices.fwd (S.tri.vertices.fwd^[k] first) ≠ first then
      S.angleLoop first fuel (S.tri.vertices.fwd (S.tri.vertices.fwd^[k] first)) (if (S.vec (S.tri.vertices.fwd^[k] first)).x ≥ 0 ∧
        (S.vec (S.tri.vertices.fwd (S.tri.vertices.fwd^[k] first))).x < 0 then acc + 1 else acc)
      else some (if (S.vec (S.tri.vertices.fwd^[k] first)).x ≥ 0 ∧
        (S.vec (S.tri.vertices.fwd (S.tri.vertices.fwd^[k] first))).x < 0 then acc + 1 else acc)) = _
    have hit : S.tri.vertices.fwd (S.tri.vertices.fwd^[k] first) = S.tri.vertices.fwd^[k + 1] first :=
      (Function.iterate_succ_apply' _ _ _).symm
    rw [Finset.sum_eq_sum_Ico_succ_bot hk]
    by_cases hl : k + 1 < Function.minimalPeriod S.tri.vertices.fwd first
    · have hne : S.tri.vertices.fwd (S.tri.vertices.fwd^[k] first) ≠ first := by
        rw [hit]
        intro hc
        exact Function.not_isPeriodicPt_of_pos_of_lt_minimalPeriod (by omega) hl hc
      rw [if_pos hne, ← add_assoc]
      have hih := ih (k + 1) hl (by omega)
      rw [← hit] at hih
      rw [hih]
      congr 2
      split_ifs <;> rfl
    · have he : k + 1 = Function.minimalPeriod S.tri.vertices.fwd first := by omega
      have hz : S.tri.vertices.fwd (S.tri.vertices.fwd^[k] first) = first := by
        rw [hit, he]
        exact Function.isPeriodicPt_minimalPeriod _ _
      rw [if_neg (not_not.2 hz), ← he, Finset.Ico_self, Finset.sum_empty, add_zero]
      congr 1
      split_ifs <;> rfl

/-- `angle` counts the sectors at a vertex which contain the upward direction. -/
theorem angle_eq (A : Option (Approx T K)) {S : FlatTri T} (hv : S.tri.vertices.WF) {x : HE} {V : Finset HE}
    (hV : ∀ y, y ∈ V ↔ S.tri.vertices.Orb x y) :
    ∃ N, ∀ fuel ≥ N, S.angle fuel V = some (V.filter fun e => S.inSector A e ⟨0, 1⟩).card := by
  have hne : V.Nonempty := ⟨x, (hV x).2 (Perm.Orb.refl _ x)⟩
  have hm := (hV _).1 (Finset.min'_mem V hne)
  have hV' : ∀ y, y ∈ V ↔ S.tri.vertices.Orb (V.min' hne) y := fun y =>
    (hV y).trans ⟨fun hy => (Perm.Orb.symm hv hm).trans hy, fun hy => hm.trans hy⟩
  have hpos := Function.minimalPeriod_pos_of_mem_periodicPts (Perm.Orb.periodic hv (V.min' hne))
  refine ⟨Function.minimalPeriod S.tri.vertices.fwd (V.min' hne), fun fuel hfuel => ?_⟩
  unfold angle
  rw [dif_pos hne]
  have := angleLoop_spec (S := S) hv (V.min' hne) 0 hpos fuel (by omega) 0
  rw [Function.iterate_zero, id] at this
  rw [this, zero_add, ← Finset.range_eq_Ico]
  rw [Perm.orbit_sum hv hV' fun e => if (S.vec e).x ≥ 0 ∧ (S.vec (S.tri.vertices.fwd e)).x < 0 then 1 else 0]
  rw [Finset.sum_boole]
  congr 2
  refine congrArg Finset.card (Finset.filter_congr fun e _ => ?_)
  rw [inSector_iff]
  simp [cross]

end FlatTri

end Verif
