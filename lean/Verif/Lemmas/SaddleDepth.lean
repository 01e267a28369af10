import Verif.Lemmas.SaddleVisit
import Verif.Lemmas.Sectors
import Verif.Lemmas.SaddleFilters

set_option linter.unusedSectionVars false

/-!
# A ray crosses only finitely many edges inside a disk
-/

namespace Verif

open Vec Spec FlatTri

namespace SaddleSearch

/-- What matters about the triangles: beyond the half edge `x`, there are the half edges `n1 x` and `n2 x`. When walking
around a vertex, these have inverses `r1` and `r2`. -/
structure Strip (n : ℕ) (V : HE → Vec ℝ) (n1 n2 r1 r2 : HE → HE) (δ D : ℝ) (N : ℕ) : Prop where
  lt1 : ∀ x < n, n1 x < n
  lt2 : ∀ x < n, n2 x < n
  sum : ∀ x < n, V (n1 x) + V (n2 x) = V x
  area : ∀ x < n, δ ≤ cross (V (n1 x)) (V x)
  size : ∀ x < n, dot (V x) (V x) ≤ D ^ 2
  pos : 0 < δ
  pos' : 0 < D
  inv1 : ∀ x < n, r1 (n1 x) = x
  inv2 : ∀ x < n, r2 (n2 x) = x
  fan1 : ∀ x < n, ∀ W, dot W W = 1 → ¬∀ i ≤ N, 0 ≤ cross W (V (r1^[i] x))
  fan2 : ∀ x < n, ∀ W, dot W W = 1 → ¬∀ i ≤ N, 0 ≤ cross W (V (r2^[i] x))

/-- The half edges that a ray in direction `W` crosses, where the ray might touch the end points. All but the last of them
satisfy `P`. -/
inductive Track (V : HE → Vec ℝ) (n1 n2 : HE → HE) (P : HE → Vec ℝ → Prop) (W : Vec ℝ) (x0 : HE) (q0 : Vec ℝ) :
    ℕ → HE → Vec ℝ → Prop
  | root : Track V n1 n2 P W x0 q0 0 x0 q0
  | right {m : ℕ} {x : HE} {q : Vec ℝ} : Track V n1 n2 P W x0 q0 m x q → P x q → 0 ≤ cross W (q - V x + V (n1 x)) →
      Track V n1 n2 P W x0 q0 (m + 1) (n1 x) (q - V x + V (n1 x))
  | left {m : ℕ} {x : HE} {q : Vec ℝ} : Track V n1 n2 P W x0 q0 m x q → P x q → cross W (q - V x + V (n1 x)) ≤ 0 →
      Track V n1 n2 P W x0 q0 (m + 1) (n2 x) q

section real

variable {V : HE → Vec ℝ} {W : Vec ℝ}

/-- A ray meets an edge. -/
theorem exists_on (hW : dot W W = 1) {u q : Vec ℝ} (h1 : 0 ≤ cross (q - u) W) (h2 : 0 ≤ cross W q) :
    ∃ s lam : ℝ, 0 ≤ s ∧ s ≤ 1 ∧ q - s • u = lam • W := by
  have key : ∀ z : Vec ℝ, cross W z = 0 → z = dot W z • W := by
    intro z hz
    unfold cross at hz
    unfold dot at hW ⊢
    ext
    · simp only [Vec.smul_x]
      linear_combination z.x * (-hW) - W.y * hz
    · simp only [Vec.smul_y]
      linear_combination z.y * (-hW) + W.x * hz
  have e : cross W u = cross (q - u) W + cross W q := by simp only [cross, Vec.sub_x, Vec.sub_y]; ring
  rcases (add_nonneg h1 h2).lt_or_eq with h | h
  · rw [← e] at h
    refine ⟨cross W q / cross W u, _, div_nonneg h2 h.le, (div_le_one h).2 (by rw [e]; linarith), key _ ?_⟩
    rw [cross_sub_right, cross_smul_right, div_mul_cancel₀ _ h.ne', sub_self]
  · refine ⟨0, dot W q, le_rfl, zero_le_one, ?_⟩
    rw [zero_smul, sub_zero]
    exact key q (by linarith)

theorem cross_le (hW : dot W W = 1) {u : Vec ℝ} {D : ℝ} (hD : 0 < D) (hu : dot u u ≤ D ^ 2) : cross W u ≤ D := by
  have : cross W u ^ 2 + dot W u ^ 2 = dot W W * dot u u := by simp only [cross, dot]; ring
  rw [hW, one_mul] at this
  exact le_of_sq_le_sq (by nlinarith [sq_nonneg (dot W u)]) hD.le
where
  le_of_sq_le_sq {a b : ℝ} (h : a ^ 2 ≤ b ^ 2) (hb : 0 ≤ b) : a ≤ b := by
    by_contra hc
    push Not at hc
    nlinarith

theorem dot_le (hW : dot W W = 1) {u : Vec ℝ} {D : ℝ} (hD : 0 ≤ D) (hu : dot u u ≤ D ^ 2) : dot W u ≤ D := by
  have : cross W u ^ 2 + dot W u ^ 2 = dot W W * dot u u := by simp only [cross, dot]; ring
  rw [hW, one_mul] at this
  exact cross_le.le_of_sq_le_sq (by nlinarith [sq_nonneg (cross W u)]) hD

variable {n : ℕ} {n1 n2 r1 r2 : HE → HE} {δ D : ℝ} {N : ℕ}

/-- From an edge to the next one, when the right end point stays. -/
theorem Strip.right (hS : Strip n V n1 n2 r1 r2 δ D N) (hW : dot W W = 1) {x : HE} (hx : x < n) {q : Vec ℝ} {s lam s' lam' : ℝ}
    (hs : 0 ≤ s ∧ s ≤ 1) (hs' : 0 ≤ s' ∧ s' ≤ 1) (h : q - s • V x = lam • W)
    (h' : q - V x + V (n1 x) - s' • V (n1 x) = lam' • W) (hp : 0 ≤ cross (q - V x) W) (hq : 0 ≤ cross W q)
    (ha : 0 ≤ cross W (q - V x + V (n1 x))) :
    lam ≤ lam' ∧ (s' ≤ 1 / 2 → lam + δ / (2 * D) ≤ lam') ∧ (s ≤ 1 / 2 → lam + δ / (2 * D) ≤ lam') := by
  have hδ := hS.area x hx
  have h0 := hS.pos
  have hD := hS.pos'
  have hκ : 0 ≤ cross W (V x) := by
    have : cross W (V x) = cross (q - V x) W + cross W q := by simp only [cross, Vec.sub_x, Vec.sub_y]; ring
    linarith
  have hκD := cross_le hW hD (hS.size x hx)
  have e1 : (lam' - lam) * cross W (V x) = (1 - s') * cross (V (n1 x)) (V x) := by
    have e : lam' • W - lam • W = (s • V x - V x) + (1 - s') • V (n1 x) := by
      rw [← h, ← h']
      ext <;> simp <;> ring
    have := congrArg (fun z => cross z (V x)) e
    simp only [cross, Vec.sub_x, Vec.sub_y, Vec.smul_x, Vec.smul_y, Vec.add_x, Vec.add_y] at this ⊢
    linear_combination this
  have hκ1 : 0 ≤ cross W (V (n1 x)) + cross (q - V x) W := by
    have : cross W (V (n1 x)) + cross (q - V x) W = cross W (q - V x + V (n1 x)) + 2 * cross (q - V x) W := by
      simp only [cross, Vec.sub_x, Vec.sub_y, Vec.add_x, Vec.add_y]; ring
    linarith
  have hκ1' : cross W (V (n1 x)) = cross W (q - V x + V (n1 x)) + cross (q - V x) W := by
    simp only [cross, Vec.sub_x, Vec.sub_y, Vec.add_x, Vec.add_y]; ring
  have hκ1n : 0 ≤ cross W (V (n1 x)) := by linarith
  have hκ1D := cross_le hW hD (hS.size _ (hS.lt1 x hx))
  have e2 : (lam' - lam) * cross W (V (n1 x)) = (1 - s) * cross (V (n1 x)) (V x) := by
    have e : lam' • W - lam • W = (s • V x - V x) + (1 - s') • V (n1 x) := by
      rw [← h, ← h']
      ext <;> simp <;> ring
    have := congrArg (fun z => cross z (V (n1 x))) e
    simp only [cross, Vec.sub_x, Vec.sub_y, Vec.smul_x, Vec.smul_y, Vec.add_x, Vec.add_y] at this ⊢
    linear_combination this
  have mono : lam ≤ lam' := by
    by_contra hc
    push Not at hc
    -- Then both edges must be in the direction of the ray.
    have z1 : cross W (V x) = 0 ∨ 0 < cross W (V x) := by rcases hκ.lt_or_eq with k | k <;> [right; left] <;> linarith
    have z2 : cross W (V (n1 x)) = 0 ∨ 0 < cross W (V (n1 x)) := by
      rcases hκ1n.lt_or_eq with k | k <;> [right; left] <;> linarith
    rcases z1 with z1 | z1
    · rcases z2 with z2 | z2
      · -- The two half edges cannot both be parallel to the ray.
        have : cross (V (n1 x)) (V x) * dot W W = cross W (V x) * dot W (V (n1 x)) - cross W (V (n1 x)) * dot W (V x) := by
          simp only [cross, dot]; ring
        rw [z1, z2, hW] at this
        linarith
      · have : (lam' - lam) * cross W (V (n1 x)) < 0 := mul_neg_of_neg_of_pos (by linarith) z2
        rw [e2] at this
        nlinarith
    · have : (lam' - lam) * cross W (V x) < 0 := mul_neg_of_neg_of_pos (by linarith) z1
      rw [e1] at this
      nlinarith
  refine ⟨mono, fun k => ?_, fun k => ?_⟩
  · have : δ / 2 ≤ (lam' - lam) * D := by
      calc δ / 2 ≤ (1 - s') * cross (V (n1 x)) (V x) := by nlinarith
        _ = (lam' - lam) * cross W (V x) := e1.symm
        _ ≤ (lam' - lam) * D := mul_le_mul_of_nonneg_left hκD (by linarith)
    have : δ / (2 * D) ≤ lam' - lam := by
      rw [div_le_iff₀ (by positivity)]
      linarith
    linarith
  · have : δ / 2 ≤ (lam' - lam) * D := by
      calc δ / 2 ≤ (1 - s) * cross (V (n1 x)) (V x) := by nlinarith
        _ = (lam' - lam) * cross W (V (n1 x)) := e2.symm
        _ ≤ (lam' - lam) * D := mul_le_mul_of_nonneg_left hκ1D (by linarith)
    have : δ / (2 * D) ≤ lam' - lam := by
      rw [div_le_iff₀ (by positivity)]
      linarith
    linarith

/-- From an edge to the next one, when the left end point stays. -/
theorem Strip.left (hS : Strip n V n1 n2 r1 r2 δ D N) (hW : dot W W = 1) {x : HE} (hx : x < n) {q : Vec ℝ} {s lam s' lam' : ℝ}
    (hs : 0 ≤ s ∧ s ≤ 1) (hs' : 0 ≤ s' ∧ s' ≤ 1) (h : q - s • V x = lam • W)
    (h' : q - s' • V (n2 x) = lam' • W) (hp : 0 ≤ cross (q - V x) W) (hq : 0 ≤ cross W q)
    (ha : cross W (q - V x + V (n1 x)) ≤ 0) :
    lam ≤ lam' ∧ (1 / 2 ≤ s' → lam + δ / (2 * D) ≤ lam') ∧ (1 / 2 ≤ s → lam + δ / (2 * D) ≤ lam') := by
  have hδ := hS.area x hx
  have h0 := hS.pos
  have hD := hS.pos'
  have hsum : V (n1 x) = V x - V (n2 x) := by rw [← hS.sum x hx]; abel
  have hδ' : cross (V (n1 x)) (V x) = cross (V x) (V (n2 x)) := by
    rw [hsum]
    simp only [cross, Vec.sub_x, Vec.sub_y]; ring
  rw [hδ'] at hδ
  have hκ : 0 ≤ cross W (V x) := by
    have : cross W (V x) = cross (q - V x) W + cross W q := by simp only [cross, Vec.sub_x, Vec.sub_y]; ring
    linarith
  have hκD := cross_le hW hD (hS.size x hx)
  have e : lam' • W - lam • W = s • V x - s' • V (n2 x) := by
    rw [← h, ← h']
    ext <;> simp
  have e1 : (lam' - lam) * cross W (V x) = s' * cross (V x) (V (n2 x)) := by
    have := congrArg (fun z => cross z (V x)) e
    simp only [cross, Vec.sub_x, Vec.sub_y, Vec.smul_x, Vec.smul_y] at this ⊢
    linear_combination this
  have hκ2n : 0 ≤ cross W (V (n2 x)) := by
    have : cross W (V (n2 x)) = cross W q - cross W (q - V x + V (n1 x)) := by
      rw [hsum]
      simp only [cross, Vec.sub_x, Vec.sub_y, Vec.add_x, Vec.add_y]; ring
    linarith
  have hκ2D := cross_le hW hD (hS.size _ (hS.lt2 x hx))
  have e2 : (lam' - lam) * cross W (V (n2 x)) = s * cross (V x) (V (n2 x)) := by
    have := congrArg (fun z => cross z (V (n2 x))) e
    simp only [cross, Vec.sub_x, Vec.sub_y, Vec.smul_x, Vec.smul_y] at this ⊢
    linear_combination this
  have mono : lam ≤ lam' := by
    by_contra hc
    push Not at hc
    have z1 : cross W (V x) = 0 ∨ 0 < cross W (V x) := by rcases hκ.lt_or_eq with k | k <;> [right; left] <;> linarith
    have z2 : cross W (V (n2 x)) = 0 ∨ 0 < cross W (V (n2 x)) := by
      rcases hκ2n.lt_or_eq with k | k <;> [right; left] <;> linarith
    rcases z1 with z1 | z1
    · rcases z2 with z2 | z2
      · have : cross (V x) (V (n2 x)) * dot W W = cross W (V (n2 x)) * dot W (V x) - cross W (V x) * dot W (V (n2 x)) := by
          simp only [cross, dot]; ring
        rw [z1, z2, hW] at this
        linarith
      · have : (lam' - lam) * cross W (V (n2 x)) < 0 := mul_neg_of_neg_of_pos (by linarith) z2
        rw [e2] at this
        nlinarith
    · have : (lam' - lam) * cross W (V x) < 0 := mul_neg_of_neg_of_pos (by linarith) z1
      rw [e1] at this
      nlinarith
  refine ⟨mono, fun k => ?_, fun k => ?_⟩
  · have : δ / 2 ≤ (lam' - lam) * D := by
      calc δ / 2 ≤ s' * cross (V x) (V (n2 x)) := by nlinarith
        _ = (lam' - lam) * cross W (V x) := e1.symm
        _ ≤ (lam' - lam) * D := mul_le_mul_of_nonneg_left hκD (by linarith)
    have : δ / (2 * D) ≤ lam' - lam := by
      rw [div_le_iff₀ (by positivity)]
      linarith
    linarith
  · have : δ / 2 ≤ (lam' - lam) * D := by
      calc δ / 2 ≤ s * cross (V x) (V (n2 x)) := by nlinarith
        _ = (lam' - lam) * cross W (V (n2 x)) := e2.symm
        _ ≤ (lam' - lam) * D := mul_le_mul_of_nonneg_left hκ2D (by linarith)
    have : δ / (2 * D) ≤ lam' - lam := by
      rw [div_le_iff₀ (by positivity)]
      linarith
    linarith

/-- What we know about an edge on the track: how far away the ray is when it crosses the edge, and how often the edges that
were crossed before turned around another vertex. -/
def Progress (V : HE → Vec ℝ) (r1 r2 : HE → HE) (η : ℝ) (N : ℕ) (W : Vec ℝ) (m : ℕ) (x : HE) (q : Vec ℝ) : Prop :=
  ∃ (s lam lp : ℝ) (c j : ℕ), (0 ≤ s ∧ s ≤ 1) ∧ q - s • V x = lam • W ∧ lp ≤ lam ∧ m ≤ c * (N + 1) + j ∧
    c * η ≤ lp + lam + η ∧
    (((∀ i ≤ j, 0 ≤ cross W (V (r1^[i] x))) ∧ (s ≤ 1 / 2 → lp + η ≤ lam)) ∨
      ((∀ i ≤ j, 0 ≤ cross W (V (r2^[i] x))) ∧ (1 / 2 ≤ s → lp + η ≤ lam)))

theorem Track.progress (hS : Strip n V n1 n2 r1 r2 δ D N) (hW : dot W W = 1) {P : HE → Vec ℝ → Prop} {x0 : HE} {q0 : Vec ℝ}
    (hx0 : x0 < n) (hpos : 0 < cross (q0 - V x0) q0) (hp0 : 0 ≤ cross (q0 - V x0) W) (hq0 : 0 ≤ cross W q0) {m : ℕ} {x : HE} {q : Vec ℝ}
    (ht : Track V n1 n2 P W x0 q0 m x q) :
    x < n ∧ 0 ≤ cross (q - V x) W ∧ 0 ≤ cross W q ∧ Progress V r1 r2 (δ / (2 * D)) N W m x q := by
  have hη : 0 < δ / (2 * D) := div_pos hS.pos (by linarith [hS.pos'])
  induction ht with
  | root =>
    refine ⟨hx0, hp0, hq0, ?_⟩
    obtain ⟨s, lam, hs0, hs1, h⟩ := exists_on hW hp0 hq0
    have hκ : cross W (V x0) = cross (q0 - V x0) W + cross W q0 := by simp only [cross, Vec.sub_x, Vec.sub_y]; ring
    have hlam : 0 ≤ lam := by
      have : lam * cross W (V x0) = cross (q0 - V x0) q0 := by
        have := congrArg (fun z => cross z (V x0)) h
        simp only [cross, Vec.sub_x, Vec.sub_y, Vec.smul_x, Vec.smul_y] at this ⊢
        linear_combination -this
      by_contra hc
      push Not at hc
      nlinarith
    refine ⟨s, lam, lam - δ / (2 * D), 0, 0, ⟨hs0, hs1⟩, h, by linarith, by omega, by push_cast; linarith, Or.inl ⟨?_, fun _ => by linarith⟩⟩
    intro i hi
    obtain rfl : i = 0 := by omega
    rw [Function.iterate_zero_apply, hκ]
    linarith
  | @right m x q _ _ ha ih =>
    obtain ⟨hx, hp, hq, s, lam, lp, c, j, hs, h, hlp, hm, hc, hk⟩ := ih
    have hp' : q - V x + V (n1 x) - V (n1 x) = q - V x := by abel
    obtain ⟨s', lam', hs0', hs1', h'⟩ := exists_on (u := V (n1 x)) hW (by rw [hp']; exact hp) ha
    obtain ⟨a1, a2, a3⟩ := hS.right hW hx hs ⟨hs0', hs1'⟩ h h' hp hq ha
    refine ⟨hS.lt1 x hx, by rw [hp']; exact hp, ha, ?_⟩
    have hκ : 0 ≤ cross W (V (n1 x)) := by
      have : cross W (V (n1 x)) = cross W (q - V x + V (n1 x)) + cross (q - V x) W := by
        simp only [cross, Vec.sub_x, Vec.sub_y, Vec.add_x, Vec.add_y]; ring
      linarith
    rcases hk with ⟨k1, k2⟩ | ⟨k1, k2⟩
    · refine ⟨s', lam', lam, c, j + 1, ⟨hs0', hs1'⟩, h', a1, by omega, by linarith, Or.inl ⟨?_, a2⟩⟩
      intro i hi
      rcases i with _ | i
      · exact hκ
      · rw [Function.iterate_succ_apply, hS.inv1 x hx]
        exact k1 i (by omega)
    · have hj : j < N := by
        by_contra hj
        exact hS.fan2 x hx W hW fun i hi => k1 i (by omega)
      refine ⟨s', lam', lam, c + 1, 0, ⟨hs0', hs1'⟩, h', a1, ?_, ?_, Or.inl ⟨?_, a2⟩⟩
      · have : (c + 1) * (N + 1) = c * (N + 1) + (N + 1) := by ring
        omega
      · have : lp + δ / (2 * D) ≤ lam' := by
          rcases le_total s (1 / 2) with k | k
          · linarith [a3 k]
          · linarith [k2 k]
        push_cast
        linarith
      · intro i hi
        obtain rfl : i = 0 := by omega
        exact hκ
  | @left m x q _ _ ha ih =>
    obtain ⟨hx, hp, hq, s, lam, lp, c, j, hs, h, hlp, hm, hc, hk⟩ := ih
    have hp' : q - V (n2 x) = q - V x + V (n1 x) := by rw [← hS.sum x hx]; abel
    have hpn : 0 ≤ cross (q - V (n2 x)) W := by rw [hp', cross_comm]; linarith
    obtain ⟨s', lam', hs0', hs1', h'⟩ := exists_on (u := V (n2 x)) hW hpn hq
    obtain ⟨a1, a2, a3⟩ := hS.left hW hx hs ⟨hs0', hs1'⟩ h h' hp hq ha
    refine ⟨hS.lt2 x hx, hpn, hq, ?_⟩
    have hκ : 0 ≤ cross W (V (n2 x)) := by
      have : cross W (V (n2 x)) = cross (q - V (n2 x)) W + cross W q := by simp only [cross, Vec.sub_x, Vec.sub_y]; ring
      linarith
    rcases hk with ⟨k1, k2⟩ | ⟨k1, k2⟩
    · have hj : j < N := by
        by_contra hj
        exact hS.fan1 x hx W hW fun i hi => k1 i (by omega)
      refine ⟨s', lam', lam, c + 1, 0, ⟨hs0', hs1'⟩, h', a1, ?_, ?_, Or.inr ⟨?_, a2⟩⟩
      · have : (c + 1) * (N + 1) = c * (N + 1) + (N + 1) := by ring
        omega
      · have : lp + δ / (2 * D) ≤ lam' := by
          rcases le_total s (1 / 2) with k | k
          · linarith [k2 k]
          · linarith [a3 k]
        push_cast
        linarith
      · intro i hi
        obtain rfl : i = 0 := by omega
        exact hκ
    · refine ⟨s', lam', lam, c, j + 1, ⟨hs0', hs1'⟩, h', a1, by omega, by linarith, Or.inr ⟨?_, a2⟩⟩
      intro i hi
      rcases i with _ | i
      · exact hκ
      · rw [Function.iterate_succ_apply, hS.inv2 x hx]
        exact k1 i (by omega)

/-- A ray crosses only so many edges that are not entirely outside a disk of radius `ρ`. -/
theorem Track.bound (hS : Strip n V n1 n2 r1 r2 δ D N) {ρ : ℝ} (hρ : 0 ≤ ρ) : ∃ M : ℕ, ∀ (W : Vec ℝ), dot W W = 1 →
    ∀ (P : HE → Vec ℝ → Prop) (x0 : HE) (q0 : Vec ℝ), x0 < n → 0 < cross (q0 - V x0) q0 → 0 ≤ cross (q0 - V x0) W → 0 ≤ cross W q0 →
    ∀ m x q, Track V n1 n2 P W x0 q0 m x q →
    (∃ s : ℝ, 0 ≤ s ∧ s ≤ 1 ∧ dot (q - s • V x) (q - s • V x) ≤ ρ ^ 2) → m ≤ M := by
  have hη : 0 < δ / (2 * D) := div_pos hS.pos (by linarith [hS.pos'])
  obtain ⟨C, hC⟩ := exists_nat_gt ((2 * (ρ + D) + δ / (2 * D)) / (δ / (2 * D)))
  refine ⟨C * (N + 1) + N, fun W hW P x0 q0 hx0 hpos hp0 hq0 m x q ht hn => ?_⟩
  obtain ⟨hx, hp, hq, s, lam, lp, c, j, hs, h, hlp, hm, hc, hk⟩ := ht.progress hS hW hx0 hpos hp0 hq0
  obtain ⟨t, ht0, ht1, ht⟩ := hn
  have hj : j < N := by
    by_contra hj
    rcases hk with ⟨k1, -⟩ | ⟨k1, -⟩
    · exact hS.fan1 x hx W hW fun i hi => k1 i (by omega)
    · exact hS.fan2 x hx W hW fun i hi => k1 i (by omega)
  have hlam : lam ≤ ρ + D := by
    have e : lam = dot W (q - t • V x) + (t - s) * dot W (V x) := by
      have := congrArg (fun z => dot W z) h
      simp only [dot, Vec.sub_x, Vec.sub_y, Vec.smul_x, Vec.smul_y] at this hW ⊢
      linear_combination lam * (-hW) - this
    have h1 := dot_le hW hρ ht
    have h2 := dot_le hW hS.pos'.le (hS.size x hx)
    have h3 := dot_le (W := W) (u := -V x) hW hS.pos'.le (by
      have := hS.size x hx
      simp only [dot, Vec.neg_x, Vec.neg_y] at this ⊢
      linarith)
    have h3' : -dot W (V x) ≤ D := by
      have : dot W (-V x) = -dot W (V x) := by simp only [dot, Vec.neg_x, Vec.neg_y]; ring
      linarith
    have h4 : (t - s) * dot W (V x) ≤ D := by
      have hD := hS.pos'
      rcases le_total 0 (t - s) with k | k
      · calc (t - s) * dot W (V x) ≤ (t - s) * D := mul_le_mul_of_nonneg_left h2 k
          _ ≤ 1 * D := mul_le_mul_of_nonneg_right (by linarith [hs.1]) hD.le
          _ = D := one_mul D
      · calc (t - s) * dot W (V x) = (s - t) * (-dot W (V x)) := by ring
          _ ≤ (s - t) * D := mul_le_mul_of_nonneg_left h3' (by linarith)
          _ ≤ 1 * D := mul_le_mul_of_nonneg_right (by linarith [hs.2]) hD.le
          _ = D := one_mul D
    linarith
  have hcC : c < C := by
    have : (c : ℝ) < C := by
      refine lt_of_le_of_lt ?_ hC
      rw [le_div_iff₀ hη]
      linarith
    exact_mod_cast this
  have : c * (N + 1) ≤ C * (N + 1) := Nat.mul_le_mul_right _ hcC.le
  omega

end real

end SaddleSearch

end Verif
