import Verif.Lemmas.SaddleStrip

set_option linter.unusedSectionVars false

/-!
# The search across an edge comes to an end
-/

namespace Verif

open Vec Spec FlatTri Function

variable {T : Type} [CommRing T] [LinearOrder T] [IsStrictOrderedRing T]

namespace SaddleSearch

/-- The vector is a combination of two vectors with coefficients that are not negative. -/
def InCone (u v W : Vec ℝ) : Prop := ∃ α β : ℝ, 0 ≤ α ∧ 0 ≤ β ∧ W = α • u + β • v

theorem InCone.left (u v : Vec ℝ) : InCone u v u := ⟨1, 0, zero_le_one, le_rfl, by simp⟩

theorem InCone.right (u v : Vec ℝ) : InCone u v v := ⟨0, 1, le_rfl, zero_le_one, by simp⟩

theorem InCone.smul {u v W : Vec ℝ} (h : InCone u v W) {c : ℝ} (hc : 0 ≤ c) : InCone u v (c • W) := by
  obtain ⟨α, β, h1, h2, rfl⟩ := h
  exact ⟨c * α, c * β, mul_nonneg hc h1, mul_nonneg hc h2, by rw [smul_add, smul_smul, smul_smul]⟩

theorem InCone.trans {u v u' v' W : Vec ℝ} (hu : InCone u v u') (hv : InCone u v v') (h : InCone u' v' W) : InCone u v W := by
  obtain ⟨α, β, h1, h2, rfl⟩ := h
  obtain ⟨a, b, h3, h4, rfl⟩ := hu
  obtain ⟨c, d, h5, h6, rfl⟩ := hv
  refine ⟨α * a + β * c, α * b + β * d, by positivity, by positivity, ?_⟩
  ext <;> simp <;> ring

theorem InCone.nonneg {u v W z : Vec ℝ} (h : InCone u v W) (hu : 0 ≤ cross u z) (hv : 0 ≤ cross v z) : 0 ≤ cross W z := by
  obtain ⟨α, β, h1, h2, rfl⟩ := h
  have : cross (α • u + β • v) z = α * cross u z + β * cross v z := by
    simp only [cross, Vec.add_x, Vec.add_y, Vec.smul_x, Vec.smul_y]; ring
  rw [this]
  positivity

theorem InCone.nonpos {u v W z : Vec ℝ} (h : InCone u v W) (hu : cross u z ≤ 0) (hv : cross v z ≤ 0) : cross W z ≤ 0 := by
  have := h.nonneg (z := -z) (by rw [cross_neg_right]; linarith) (by rw [cross_neg_right]; linarith)
  rw [cross_neg_right] at this
  linarith

theorem inCone_of {u v a n : Vec ℝ} (hu : 0 < cross u n) (hv : 0 < cross v n) (ha : 0 < cross a n) (h0 : 0 ≤ cross u a)
    (h1 : 0 ≤ cross a v) : InCone u v a := by
  rcases (cross_trans hu ha hv h0 h1).lt_or_eq with h | h
  · refine ⟨cross a v / cross u v, cross u a / cross u v, by positivity, by positivity, ?_⟩
    ext
    · simp only [Vec.add_x, Vec.smul_x]
      field_simp
      simp only [cross]; ring
    · simp only [Vec.add_y, Vec.smul_y]
      field_simp
      simp only [cross]; ring
  · have h2 : cross u a = 0 := by
      have e := cross_trans_eq u a v n
      rw [← h, zero_mul] at e
      have := mul_nonneg h0 hv.le
      have := mul_nonneg h1 hu.le
      have : cross u a * cross v n = 0 := by linarith
      rcases mul_eq_zero.1 this with k | k
      · exact k
      · exact absurd k hv.ne'
    refine ⟨cross a n / cross u n, 0, by positivity, le_rfl, ?_⟩
    rw [zero_smul, add_zero]
    ext
    · simp only [Vec.smul_x]
      field_simp
      simp only [cross] at h2 ⊢
      linear_combination n.x * h2
    · simp only [Vec.smul_y]
      field_simp
      simp only [cross] at h2 ⊢
      linear_combination n.y * h2

/-- Every direction has a unit vector. -/
theorem exists_unit {u : Vec ℝ} (hu : u ≠ 0) : ∃ c : ℝ, 0 < c ∧ dot (c • u) (c • u) = 1 := by
  have h := dot_self_pos hu
  refine ⟨(Real.sqrt (dot u u))⁻¹, by positivity, ?_⟩
  have : dot ((Real.sqrt (dot u u))⁻¹ • u) ((Real.sqrt (dot u u))⁻¹ • u) = (Real.sqrt (dot u u))⁻¹ ^ 2 * dot u u := by
    simp only [dot, Vec.smul_x, Vec.smul_y]; ring
  rw [this, inv_pow, Real.sq_sqrt h.le, inv_mul_cancel₀ h.ne']

variable {S : FlatTri T} {f : T →+* ℝ}

/-- A ray gets to an edge after crossing this many other edges. -/
def Gets (f : T →+* ℝ) (S : FlatTri T) (W : Vec ℝ) (m : ℕ) (x : HE) (q : Vec T) : Prop :=
  ∃ x0 q0, x0 < S.tri.size ∧ 0 < cross (q0 - (S.vec x0).map f) q0 ∧ 0 ≤ cross (q0 - (S.vec x0).map f) W ∧ 0 ≤ cross W q0 ∧
    Track (fun x => (S.vec x).map f) (beyond1 S) (beyond2 S) (fun _ _ => True) W x0 q0 m x (q.map f)

theorem map_apex (x : HE) (q : Vec T) : (apex S x q).map f = q.map f - (S.vec x).map f + (S.vec (beyond1 S x)).map f := by
  unfold apex
  ext <;> simp [Vec.map]

theorem Gets.right {W : Vec ℝ} {m : ℕ} {x : HE} {q : Vec T} (h : Gets f S W m x q) (ha : 0 ≤ cross W ((apex S x q).map f)) :
    Gets f S W (m + 1) (beyond1 S x) (apex S x q) := by
  obtain ⟨x0, q0, h1, h2, h3, h4, h5⟩ := h
  refine ⟨x0, q0, h1, h2, h3, h4, ?_⟩
  rw [map_apex] at ha ⊢
  exact .right h5 trivial ha

theorem Gets.left {W : Vec ℝ} {m : ℕ} {x : HE} {q : Vec T} (h : Gets f S W m x q) (ha : cross W ((apex S x q).map f) ≤ 0) :
    Gets f S W (m + 1) (beyond2 S x) q := by
  obtain ⟨x0, q0, h1, h2, h3, h4, h5⟩ := h
  refine ⟨x0, q0, h1, h2, h3, h4, ?_⟩
  rw [map_apex] at ha
  exact .left h5 trivial ha

/-- Part of the edge is inside the search radius. -/
def Near (f : T →+* ℝ) (S : FlatTri T) (r : Bound) (x : HE) (q : Vec T) : Prop :=
  ∃ s : ℝ, 0 ≤ s ∧ s ≤ 1 ∧ dot (q.map f - s • (S.vec x).map f) (q.map f - s • (S.vec x).map f) ≤ f (r.square : T)

theorem Gets.bound (h : S.Shut) (hf : StrictMono f) (r : Bound) : ∃ M, ∀ W, dot W W = 1 → ∀ m x q, Gets f S W m x q →
    Near f S r x q → m ≤ M := by
  obtain ⟨r1, r2, δ, D, N, hS⟩ := exists_strip h hf
  by_cases hr : 0 ≤ f (r.square : T)
  · obtain ⟨M, hM⟩ := Track.bound hS (Real.sqrt_nonneg (f (r.square : T)))
    refine ⟨M, fun W hW m x q ⟨x0, q0, h1, h2, h3, h4, h5⟩ ⟨s, s0, s1, hs⟩ => ?_⟩
    exact hM W hW _ x0 q0 h1 h2 h3 h4 m x _ h5 ⟨s, s0, s1, by rw [Real.sq_sqrt hr]; exact hs⟩
  · refine ⟨0, fun W hW m x q _ ⟨s, s0, s1, hs⟩ => ?_⟩
    exact absurd ((dot_self_nonneg _).trans hs) hr

/-- What has been recorded about the end points of an edge is correct. -/
structure Truth (S : FlatTri T) (r : Bound) (s t : Option Bool) (x : HE) (q : Vec T) : Prop where
  start : s = some false → dot (q - S.vec x) (q - S.vec x) ≤ (r.square : T)
  stop : t = some false → dot q q ≤ (r.square : T)

/-- The search goes on only if part of the edge is inside the search radius. -/
theorem near_of_not_prune (h : S.Shut) (hf : StrictMono f) {r : Bound} {s t s' t' : Option Bool} {x : HE} {q : Vec T}
    (hx : x < S.tri.size) (ht : Truth S r s t x q) (hs : settled (some r) q s t = (s', t')) (hp : ¬Prune S (some r) s' t' x q) :
    Truth S r s' t' x q ∧ Near f S r x q := by
  have ht' : Truth S r s' t' x q ∧ ¬(s' = none ∧ t' = none) := by
    unfold settled at hs
    rcases s with _ | s <;> rcases t with _ | t <;> simp only [Prod.mk.injEq] at hs <;> obtain ⟨rfl, rfl⟩ := hs
    · refine ⟨⟨by simp, fun k => ?_⟩, by simp⟩
      simp only [Option.some.injEq, Bool.not_eq_eq_eq_not, Bool.not_false, decide_eq_true_eq] at k
      exact k.le
    · exact ⟨ht, by simp⟩
    · exact ⟨ht, by simp⟩
    · exact ⟨ht, by simp⟩
  refine ⟨ht'.1, ?_⟩
  obtain ⟨⟨k1, k2⟩, k3⟩ := ht'
  by_cases ho : s' = some true ∨ t' = some true
  · have hno : ¬AllOutside S r x q := fun k => hp ⟨ho, r, rfl, k⟩
    unfold AllOutside at hno
    dsimp only at hno
    rw [C26.positive_correct f hf] at hno
    push Not at hno
    obtain ⟨t, t0, t1, hv⟩ := hno
    refine ⟨t, t0, t1, ?_⟩
    rw [h.flat.odd x hx] at hv
    unfold C26.value at hv
    simp only [map_add, map_mul, map_sub, Vec.neg_x, Vec.neg_y, map_neg, map_ofNat] at hv
    simp only [dot, Vec.map, Vec.sub_x, Vec.sub_y, Vec.smul_x, Vec.smul_y]
    linarith
  · push Not at ho
    rcases s' with _ | _ | _
    · rcases t' with _ | _ | _
      · exact absurd ⟨rfl, rfl⟩ k3
      · refine ⟨0, le_rfl, zero_le_one, ?_⟩
        rw [zero_smul, sub_zero, dot_map]
        exact hf.monotone (k2 rfl)
      · exact absurd rfl ho.2
    · refine ⟨1, zero_le_one, le_rfl, ?_⟩
      have e : q.map f - (1 : ℝ) • (S.vec x).map f = (q - S.vec x).map f := by ext <;> simp [Vec.map]
      rw [e, dot_map]
      exact hf.monotone (k1 rfl)
    · exact absurd rfl ho.1

theorem Void.cw_or {b0 b1 : Bd T} (h : Void b0 b1) (a : Vec T) : Cw b0 a ∨ 0 < cross b0.2 a ∧ 0 ≤ cross b1.2 a := by
  rcases lt_trichotomy (cross b0.2 a) 0 with k | k | k
  · exact Or.inl (Or.inl k)
  · exact Or.inl (Or.inr ⟨k, h.1⟩)
  · exact Or.inr ⟨k, h.2 a k⟩

theorem notNear_spec {r : Bound} {a : Vec T} (h : some (notNear (some r) a) = some false) : dot a a ≤ (r.square : T) := by
  unfold notNear at h
  simp only [Option.some.injEq, Bool.not_eq_eq_eq_not, Bool.not_false, decide_eq_true_eq] at h
  exact h.le

theorem far_spec {r : Bound} {a : Vec T} (h : some (far (some r) a) = some false) : dot a a ≤ (r.square : T) := by
  unfold far at h
  simp only [Option.some.injEq, decide_eq_false_iff_not, not_lt] at h
  exact h

variable {r : Bound} {L : Bound} {M : ℕ}

theorem Truth.clockwise (h : S.Shut) {s t : Option Bool} {x : HE} {q : Vec T} (hx : x < S.tri.size) (ht : Truth S r s t x q) :
    Truth S r (some (notNear (some r) (apex S x q))) t (beyond2 S x) q := by
  refine ⟨fun k => ?_, ht.stop⟩
  rw [(apex_spec h hx).2.2.2.1]
  exact notNear_spec k

theorem Truth.counterclockwise (h : S.Shut) {s t : Option Bool} {x : HE} {q : Vec T} (hx : x < S.tri.size) (ht : Truth S r s t x q) :
    Truth S r s none (beyond1 S x) (apex S x q) := by
  refine ⟨fun k => ?_, by simp⟩
  rw [(apex_spec h hx).2.2.1]
  exact ht.start k

theorem Truth.first (h : S.Shut) {s t : Option Bool} {x : HE} {q : Vec T} (hx : x < S.tri.size) (ht : Truth S r s t x q) :
    Truth S r s (some (far (some r) (apex S x q))) (beyond1 S x) (apex S x q) := by
  refine ⟨fun k => ?_, far_spec⟩
  rw [(apex_spec h hx).2.2.1]
  exact ht.start k

theorem Truth.second (h : S.Shut) {s t : Option Bool} {x : HE} {q : Vec T} (hx : x < S.tri.size) (ht : Truth S r s t x q) :
    Truth S r (some (far (some r) (apex S x q))) t (beyond2 S x) q := by
  refine ⟨fun k => ?_, ht.stop⟩
  rw [(apex_spec h hx).2.2.2.1]
  exact far_spec k

theorem Visit.exists_dead (h : S.Shut) (hf : StrictMono f)
    (hM : ∀ W, dot W W = 1 → ∀ m x q, Gets f S W m x q → Near f S r x q → m ≤ M) {b0 b1 : Bd T} (hv : Void b0 b1)
    {W : Vec ℝ} (hW : dot W W = 1) (hc : InCone (b0.2.map f) (b0.2.map f) W) :
    ∀ k m s t x q, m + k = M + 1 → x < S.tri.size → Truth S r s t x q → Gets f S W m x q →
      ∃ l b, Visit S (some r) L s t b0 b1 x q l b := by
  intro k
  induction k with
  | zero =>
    intro m s t x q hm hx ht hg
    obtain ⟨s', t', hs⟩ : ∃ s' t', settled (some r) q s t = (s', t') := ⟨_, _, rfl⟩
    by_cases hp : Prune S (some r) s' t' x q
    · exact ⟨[], b0, .prune hs hp⟩
    · have := hM W hW m x q hg (near_of_not_prune h hf hx ht hs hp).2
      omega
  | succ k ih =>
    intro m s t x q hm hx ht hg
    obtain ⟨s', t', hs⟩ : ∃ s' t', settled (some r) q s t = (s', t') := ⟨_, _, rfl⟩
    by_cases hp : Prune S (some r) s' t' x q
    · exact ⟨[], b0, .prune hs hp⟩
    · have ht' := (near_of_not_prune h hf hx ht hs hp).1
      obtain ⟨l1, l2, -⟩ := apex_spec (q := q) h hx
      rcases hv.cw_or (apex S x q) with ha | ha
      · have hn : cross (b0.2.map f) ((apex S x q).map f) ≤ 0 := by
          rw [cross_map, ← map_zero f]
          apply hf.monotone
          rcases ha with ha | ha
          · exact ha.le
          · exact ha.1.le
        obtain ⟨l, b, hv⟩ := ih (m + 1) _ _ _ q (by omega) l2 (ht'.clockwise h hx) (hg.left (hc.nonpos hn hn))
        exact ⟨l, b, .cw hs hp ha hv⟩
      · have hn : 0 ≤ cross (b0.2.map f) ((apex S x q).map f) := by
          rw [cross_map, ← map_zero f]
          exact hf.monotone ha.1.le
        obtain ⟨l, b, hv⟩ := ih (m + 1) _ _ _ _ (by omega) l1 (ht'.counterclockwise h hx) (hg.right (hc.nonneg hn hn))
        exact ⟨l, b, .ccw hs hp ha.1 ha.2 hv⟩

theorem Visit.exists_node (h : S.Shut) (hf : StrictMono f)
    (hM : ∀ W, dot W W = 1 → ∀ m x q, Gets f S W m x q → Near f S r x q → m ≤ M) :
    ∀ k m s t b0 b1 x q, m + k = M + 1 → Node S b0 b1 x q → Truth S r s t x q →
      (∀ W, dot W W = 1 → InCone (b0.2.map f) (b1.2.map f) W → Gets f S W m x q) →
      ∃ l b, Visit S (some r) L s t b0 b1 x q l b := by
  have unit : ∀ {u v W : Vec ℝ}, W ≠ 0 → InCone u v W → ∃ W', dot W' W' = 1 ∧ InCone u v W' ∧ InCone W W W' := by
    intro u v W hne hc
    obtain ⟨c, c0, c1⟩ := exists_unit hne
    exact ⟨c • W, c1, hc.smul c0.le, (InCone.left W W).smul c0.le⟩
  intro d
  induction d with
  | zero =>
    intro m s t b0 b1 x q hm hn ht hg
    obtain ⟨s', t', hs⟩ : ∃ s' t', settled (some r) q s t = (s', t') := ⟨_, _, rfl⟩
    by_cases hp : Prune S (some r) s' t' x q
    · exact ⟨[], b0, .prune hs hp⟩
    · have hne : b0.2 ≠ 0 := by intro k; have := hn.half0; rw [k] at this; simp at this
      obtain ⟨W, hW, hc, -⟩ := unit (map_ne_zero f hf hne) (InCone.left _ (b1.2.map f))
      have := hM W hW m x q (hg W hW hc) (near_of_not_prune h hf hn.lt ht hs hp).2
      omega
  | succ d ih =>
    intro m s t b0 b1 x q hm hn ht hg
    obtain ⟨s', t', hs⟩ : ∃ s' t', settled (some r) q s t = (s', t') := ⟨_, _, rfl⟩
    by_cases hp : Prune S (some r) s' t' x q
    · exact ⟨[], b0, .prune hs hp⟩
    have hx := hn.lt
    have ht' := (near_of_not_prune h hf hx ht hs hp).1
    obtain ⟨l1, l2, -⟩ := apex_spec (q := q) h hx
    have ha := hn.halfa h
    have hb0 := hn.half0
    have hb1 := hn.half1
    have up : ∀ {u v : Vec T}, 0 < cross u v → 0 < cross (u.map f) (v.map f) := by
      intro u v k; rw [cross_map, ← map_zero f]; exact hf k
    have up' : ∀ {u v : Vec T}, 0 ≤ cross u v → 0 ≤ cross (u.map f) (v.map f) := by
      intro u v k; rw [cross_map, ← map_zero f]; exact hf.monotone k
    have h01 : 0 ≤ cross b0.2 b1.2 := by
      rcases hn.b with hb | hb
      · exact hb.le
      · exact hb.2.ge
    by_cases hcw : Cw b0 (apex S x q)
    · have n0 : cross b0.2 (apex S x q) ≤ 0 := by
        rcases hcw with k | k
        · exact k.le
        · exact k.1.le
      have n1 : 0 ≤ cross (apex S x q) b1.2 := cross_trans ha hb0 hb1 (by rw [cross_comm]; linarith) h01
      obtain ⟨l, b, hv⟩ := ih (m + 1) _ _ b0 b1 _ q (by omega) (hn.clockwise h hcw) (ht'.clockwise h hx) fun W hW hc =>
        (hg W hW hc).left (hc.nonpos (by
          rw [cross_comm]; have := up' (u := apex S x q) (v := b0.2) (by rw [cross_comm]; linarith); linarith) (by
          rw [cross_comm]; have := up' n1; linarith))
      exact ⟨l, b, .cw hs hp hcw hv⟩
    by_cases hccw : 0 < cross b0.2 (apex S x q) ∧ 0 ≤ cross b1.2 (apex S x q)
    · obtain ⟨l, b, hv⟩ := ih (m + 1) _ _ b0 b1 _ _ (by omega) (hn.counterclockwise h hccw.1 hccw.2) (ht'.counterclockwise h hx)
        fun W hW hc => (hg W hW hc).right (hc.nonneg (up' hccw.1.le) (up' hccw.2))
      exact ⟨l, b, .ccw hs hp hccw.1 hccw.2 hv⟩
    have hsad : Sad b0 b1 (apex S x q) := by
      unfold Cw at hcw
      unfold Sad
      rcases lt_trichotomy (cross b0.2 (apex S x q)) 0 with k | k | k
      · exact absurd (Or.inl k) hcw
      · refine Or.inl ⟨k, ?_⟩
        rcases hb : b0.1 with _ | _
        · rfl
        · exact absurd (Or.inr ⟨k, hb⟩) hcw
      · refine Or.inr ⟨k, ?_⟩
        by_contra hc
        exact hccw ⟨k, not_lt.1 hc⟩
    have n0 : 0 ≤ cross b0.2 (apex S x q) := by
      rcases hsad with k | k
      · exact k.1.ge
      · exact k.1.le
    have n1 : 0 ≤ cross (apex S x q) b1.2 := by
      rcases hsad with k | k
      · exact cross_trans ha hb0 hb1 (by rw [cross_comm, k.1, neg_zero]) h01
      · rw [cross_comm]; linarith
    have hcone : InCone (b0.2.map f) (b1.2.map f) ((apex S x q).map f) :=
      inCone_of (n := (S.vec x).map f) (up hb0) (up hb1) (up ha) (up' n0) (up' n1)
    have hend : shrinkEnd b1 (apex S x q) = (true, apex S x q) := by
      unfold shrinkEnd
      rw [if_pos]
      right
      rw [cross_comm]
      linarith
    have hane : (apex S x q).map f ≠ 0 := map_ne_zero f hf (by intro k; rw [k] at ha; simp at ha)
    have hself : cross ((apex S x q).map f) ((apex S x q).map f) = 0 := cross_self _
    -- The first part of the search.
    obtain ⟨l, b, hv1, hb⟩ : ∃ l b, Visit S (some r) L s' (some (far (some r) (apex S x q))) (touch b0 (apex S x q))
        (shrinkEnd b1 (apex S x q)) (beyond1 S x) (apex S x q) l b ∧ (b = b0 ∨ b.1 = true) := by
      rw [hend]
      rcases hsad with k | k
      · have htt : touch b0 (apex S x q) = (true, apex S x q) := by
          unfold touch; rw [if_pos ⟨k.2, k.1⟩]
        rw [htt]
        have hvoid : Void (true, apex S x q) (true, apex S x q) := void_of_same ha ha (cross_self _)
        obtain ⟨W, hW, hc, hc'⟩ := unit hane hcone
        obtain ⟨l, b, hv⟩ := Visit.exists_dead (L := L) h hf hM hvoid hW hc' d (m + 1) s' _ _ _ (by omega) l1
          (ht'.first h hx) ((hg W hW hc).right (hc'.nonneg hself.ge hself.ge))
        exact ⟨l, b, hv, Or.inr (by rw [(hv.void hvoid).2])⟩
      · have htt : touch b0 (apex S x q) = b0 := by
          unfold touch; rw [if_neg]; rintro ⟨-, k'⟩; exact absurd k.1 (by rw [k']; exact lt_irrefl _)
        rw [htt]
        have hn' := hn.first h k.1
        obtain ⟨l, b, hv⟩ := ih (m + 1) s' _ b0 (true, apex S x q) _ _ (by omega) hn' (ht'.first h hx) fun W hW hc =>
          (hg W hW ((InCone.left _ _).trans hcone hc)).right (hc.nonneg (up' k.1.le) hself.ge)
        exact ⟨l, b, hv, (hv.correct hf h hn').1⟩
    -- The second part of the search.
    have hbeg : shrinkBegin b (apex S x q) = (true, apex S x q) := by
      unfold shrinkBegin
      rw [if_pos]
      rcases hb with hb | hb
      · right; rw [hb]; linarith
      · left; exact hb
    obtain ⟨l', b', hv2⟩ : ∃ l' b', Visit S (some r) L (some (far (some r) (apex S x q))) t' (shrinkBegin b (apex S x q)) b1
        (beyond2 S x) q l' b' := by
      rw [hbeg]
      rcases n1.lt_or_eq with k | k
      · exact ih (m + 1) _ t' (true, apex S x q) b1 _ q (by omega) (hn.second h k) (ht'.second h hx) fun W hW hc =>
          (hg W hW (hcone.trans (InCone.right _ _) hc)).left (hc.nonpos hself.le (by
            rw [cross_comm]; have := up' n1; linarith))
      · obtain ⟨W, hW, hc, hc'⟩ := unit hane hcone
        exact Visit.exists_dead h hf hM (void_of_same ha hb1 k.symm) hW hc' d (m + 1) _ t' _ _ (by omega) l2
          (ht'.second h hx) ((hg W hW hc).left (hc'.nonpos hself.le hself.le))
    exact ⟨_, _, .saddle hs hp hsad hv1 hv2⟩

end SaddleSearch

end Verif
