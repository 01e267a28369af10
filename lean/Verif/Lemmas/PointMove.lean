import Verif.Model.PointMove
import Verif.Spec.PointMove
import Verif.Lemmas.SaddlePath
import Verif.Lemmas.SaddleStrip
import Verif.Lemmas.SaddleExists
import Verif.Props.C31
import Verif.Props.C52

/-!
# Lemmas about moving points
-/

namespace Verif

open Spec Tri FlatTri Vec SaddleSearch

variable {T : Type} [CommRing T] [LinearOrder T] [IsStrictOrderedRing T]
variable {K : Type} [Field K] [LinearOrder K] [IsStrictOrderedRing K]

namespace Move

section plane

variable {p a q v : Vec ℝ} {l s : ℝ}

/-- A ray that comes from the side from `p` to `q` leaves a triangle through the side from `p` to `a`. -/
theorem exit_right (hs : l • v = p + s • (q - p)) (harea : 0 < cross (a - p) (q - p)) (hv : 0 < cross v (q - p))
    (hp : 0 ≤ cross p v) (ha : 0 < cross v a) : ∃ l' s' : ℝ, l ≤ l' ∧ 0 ≤ s' ∧ s' < 1 ∧ (0 < cross p v → 0 < s') ∧
      l' • v = p + s' • (a - p) := by
  have hd : 0 < cross p v + cross v a := by linarith
  have key : (cross p a / (cross p v + cross v a)) • v = p + (cross p v / (cross p v + cross v a)) • (a - p) := by
    ext
    · simp only [smul_x, add_x, sub_x]
      field_simp
      simp only [cross]; ring
    · simp only [smul_y, add_y, sub_y]
      field_simp
      simp only [cross]; ring
  have h0 : 0 ≤ cross p v / (cross p v + cross v a) := div_nonneg hp hd.le
  refine ⟨_, _, ?_, h0, (div_lt_one hd).2 (by linarith), fun k => div_pos k hd, key⟩
  set l' := cross p a / (cross p v + cross v a)
  set s' := cross p v / (cross p v + cross v a)
  have e1 : (l' - l) * cross v (q - p) = s' * cross (a - p) (q - p) := by
    have h1 : l' * cross v (q - p) = cross (l' • v) (q - p) := by simp only [cross, smul_x, smul_y]; ring
    have h2 : l * cross v (q - p) = cross (l • v) (q - p) := by simp only [cross, smul_x, smul_y]; ring
    rw [sub_mul, h1, h2, key, hs]
    simp only [cross, smul_x, smul_y, add_x, add_y, sub_x, sub_y]; ring
  by_contra hc
  push Not at hc
  nlinarith [mul_nonneg h0 harea.le]

/-- A ray that comes from the side from `p` to `q` leaves a triangle through the side from `a` to `q`. -/
theorem exit_left (hs : l • v = p + s • (q - p)) (harea : 0 < cross (a - p) (q - p)) (hv : 0 < cross v (q - p))
    (hq : 0 < cross v q) (ha : cross v a ≤ 0) : ∃ l' s' : ℝ, l ≤ l' ∧ 0 ≤ s' ∧ s' < 1 ∧ (cross v a < 0 → 0 < s') ∧
      (cross v a = 0 → s' = 0) ∧ l' • v = a + s' • (q - a) := by
  have hd : 0 < cross v q - cross v a := by linarith
  have key : (cross a q / (cross v q - cross v a)) • v = a + (-cross v a / (cross v q - cross v a)) • (q - a) := by
    ext
    · simp only [smul_x, add_x, sub_x]
      field_simp
      simp only [cross]; ring
    · simp only [smul_y, add_y, sub_y]
      field_simp
      simp only [cross]; ring
  have h0 : 0 ≤ -cross v a / (cross v q - cross v a) := div_nonneg (by linarith) hd.le
  have h1 : -cross v a / (cross v q - cross v a) < 1 := (div_lt_one hd).2 (by linarith)
  refine ⟨_, _, ?_, h0, h1, fun k => div_pos (by linarith) hd, fun k => by rw [k]; simp, key⟩
  set l' := cross a q / (cross v q - cross v a)
  set s' := -cross v a / (cross v q - cross v a)
  have e1 : (l' - l) * cross v (q - p) = (1 - s') * cross (a - p) (q - p) := by
    have h1 : l' * cross v (q - p) = cross (l' • v) (q - p) := by simp only [cross, smul_x, smul_y]; ring
    have h2 : l * cross v (q - p) = cross (l • v) (q - p) := by simp only [cross, smul_x, smul_y]; ring
    rw [sub_mul, h1, h2, key, hs]
    simp only [cross, smul_x, smul_y, add_x, add_y, sub_x, sub_y]; ring
  by_contra hc
  push Not at hc
  nlinarith [mul_nonneg (sub_nonneg.2 h1.le) harea.le]

theorem between {c d v : Vec ℝ} {l l' : ℝ} (h : 0 ≤ cross c (l • v - d)) (h' : 0 ≤ cross c (l' • v - d)) (hl : l ≤ 1) (hl' : 1 ≤ l') :
    0 ≤ cross c (v - d) := by
  simp only [cross, smul_x, smul_y, sub_x, sub_y] at *
  rcases le_total 0 (c.x * v.y - c.y * v.x) with k | k <;> nlinarith

end plane

variable {S : FlatTri T} {f : T →+* ℝ}

/-- The barycentric coordinates tell whether a point is in a triangle. -/
theorem inFace_iff (h : S.Shut) (hf : StrictMono f) {e : HE} (he : e < S.tri.size) (w : Vec T) :
    inFace (S.barycentric e w) = true ↔ InTriangle f S e (w.map f) := by
  obtain ⟨g1, g2, g3, g4, g5, g6, g7, g8, g9⟩ := h.flat.quad (h.quad he)
  have e1 : S.vec (S.tri.faces.fwd (S.tri.faces.fwd e)) = -(S.vec e + S.vec (S.tri.faces.fwd e)) := by
    rw [eq_neg_iff_add_eq_zero, add_comm]
    exact g6
  have key : ∀ z : T, 0 ≤ z ↔ 0 ≤ f z := fun z => by rw [← map_zero f, hf.le_iff_le]
  unfold inFace InTriangle
  simp only [Bool.and_eq_true, decide_eq_true_eq]
  rw [key, key (S.barycentric e w).2.1, key (S.barycentric e w).2.2]
  have a1 : f (S.barycentric e w).1 = cross ((S.vec (S.tri.nextInFace e)).map f) (w.map f - (S.vec e).map f) := by
    unfold barycentric Tri.previousInFace Tri.nextInFace cross
    rw [h.prev, e1]
    simp only [Vec.map, neg_x, neg_y, add_x, add_y, sub_x, sub_y, map_sub, map_mul, map_add, map_neg]
    ring
  have a2 : f (S.barycentric e w).2.1 = cross ((S.vec (S.tri.nextInFace (S.tri.nextInFace e))).map f) (w.map f) := by
    unfold barycentric Tri.previousInFace Tri.nextInFace cross
    rw [h.prev, e1]
    simp only [Vec.map, neg_x, neg_y, add_x, add_y, map_sub, map_mul, map_add, map_neg]
    ring
  have a3 : f (S.barycentric e w).2.2 = cross ((S.vec e).map f) (w.map f) := by
    unfold barycentric cross
    simp only [Vec.map, map_sub, map_mul, map_add, map_neg]
    ring
  rw [a1, a2, a3]
  tauto

theorem Spec.InTriangle.between {e : HE} {v d : Vec ℝ} {l l' : ℝ} (h : InTriangle f S e (l • v - d)) (h' : InTriangle f S e (l' • v - d))
    (hl : l ≤ 1) (hl' : 1 ≤ l') : InTriangle f S e (v - d) := by
  obtain ⟨a1, a2, a3⟩ := h
  obtain ⟨b1, b2, b3⟩ := h'
  refine ⟨Move.between a1 b1 hl hl', ?_, Move.between a3 b3 hl hl'⟩
  rw [sub_sub] at a2 b2 ⊢
  exact Move.between a2 b2 hl hl'

/-- The triangle on the other side of a half edge that ends at `q`. -/
theorem triangle (h : S.Shut) (hf : StrictMono f) {x : HE} (hx : x < S.tri.size) (q : Vec T) :
    (S.vec x).map f = q.map f - (q - S.vec x).map f ∧
    (S.vec (S.tri.nextInFace (neg x))).map f = (apex S x q).map f - (q - S.vec x).map f ∧
    (S.vec (S.tri.nextInFace (S.tri.nextInFace (neg x)))).map f = q.map f - (apex S x q).map f ∧
    (S.vec (neg x)).map f = (q - S.vec x).map f - q.map f ∧
    S.tri.nextInFace (S.tri.nextInFace (S.tri.nextInFace (neg x))) = neg x ∧
    0 < cross ((apex S x q).map f - (q - S.vec x).map f) (q.map f - (q - S.vec x).map f) := by
  obtain ⟨-, -, k1, k2, k3⟩ := apex_spec (q := q) h hx
  have e1 : S.vec (S.tri.nextInFace (neg x)) = apex S x q - (q - S.vec x) := by rw [← k1]; abel
  have e2 : S.vec (S.tri.nextInFace (S.tri.nextInFace (neg x))) = q - apex S x q := by rw [← k2]; abel
  have hsub : ∀ u w : Vec T, (u - w).map f = u.map f - w.map f := fun u w => by
    ext
    · simp only [Vec.map, sub_x, map_sub]
    · simp only [Vec.map, sub_y, map_sub]
  refine ⟨?_, by rw [e1, hsub], by rw [e2, hsub], ?_, h.next3 _, ?_⟩
  · rw [hsub]; abel
  · rw [h.flat.odd x hx, hsub]
    ext
    · simp only [Vec.map, neg_x, sub_x, map_neg]; ring
    · simp only [Vec.map, neg_y, sub_y, map_neg]; ring
  · have : cross ((apex S x q).map f - (q - S.vec x).map f) (q.map f - (q - S.vec x).map f) =
        f (cross (apex S x q) (S.vec x) - cross (q - S.vec x) q) := by
      simp only [cross, Vec.map, sub_x, sub_y, map_sub, map_mul]; ring
    rw [this, ← map_zero f]
    exact hf k3

/-- Positions in that triangle. -/
theorem inTriangle_iff (h : S.Shut) (hf : StrictMono f) {x : HE} (hx : x < S.tri.size) (q : Vec T) (w : Vec ℝ) :
    InTriangle f S (S.tri.nextInFace (neg x)) w ↔ 0 ≤ cross ((apex S x q).map f - (q - S.vec x).map f) w ∧
      0 ≤ cross (q.map f - (apex S x q).map f) (w - ((apex S x q).map f - (q - S.vec x).map f)) ∧
      0 ≤ cross ((q - S.vec x).map f - q.map f) w := by
  obtain ⟨-, t2, t3, t4, t5, -⟩ := triangle h hf hx q
  unfold InTriangle
  rw [t5, t2, t3, t4]

variable {free : HE → Prop} {V : Vec ℝ} {e x : HE} {q : Vec T} {l s ε ρ : ℝ}

/-- The side one comes from. -/
theorem inTriangle_back (h : S.Shut) (hf : StrictMono f) (hx : x < S.tri.size) (q : Vec T) (h0 : 0 ≤ s) (h1 : s ≤ 1) :
    InTriangle f S (S.tri.nextInFace (neg x)) (s • (q.map f - (q - S.vec x).map f)) := by
  obtain ⟨-, -, -, -, -, t6⟩ := triangle h hf hx q
  rw [inTriangle_iff h hf hx q]
  set P := (q - S.vec x).map f
  set A := (apex S x q).map f
  set Q := q.map f
  refine ⟨?_, ?_, ?_⟩
  · have : cross (A - P) (s • (Q - P)) = s * cross (A - P) (Q - P) := by simp only [cross, smul_x, smul_y]; ring
    rw [this]; positivity
  · have : cross (Q - A) (s • (Q - P) - (A - P)) = (1 - s) * cross (A - P) (Q - P) := by
      simp only [cross, smul_x, smul_y, sub_x, sub_y]; ring
    rw [this]; nlinarith
  · have : cross (P - Q) (s • (Q - P)) = 0 := by simp only [cross, smul_x, smul_y, sub_x, sub_y]; ring
    rw [this]

/-- The side on the right. -/
theorem inTriangle_right (h : S.Shut) (hf : StrictMono f) (hx : x < S.tri.size) (q : Vec T) (h0 : 0 ≤ s) (h1 : s ≤ 1) :
    InTriangle f S (S.tri.nextInFace (neg x)) (s • ((apex S x q).map f - (q - S.vec x).map f)) := by
  obtain ⟨-, -, -, -, -, t6⟩ := triangle h hf hx q
  rw [inTriangle_iff h hf hx q]
  set P := (q - S.vec x).map f
  set A := (apex S x q).map f
  set Q := q.map f
  refine ⟨?_, ?_, ?_⟩
  · have : cross (A - P) (s • (A - P)) = 0 := by simp only [cross, smul_x, smul_y, sub_x, sub_y]; ring
    rw [this]
  · have : cross (Q - A) (s • (A - P) - (A - P)) = (1 - s) * cross (A - P) (Q - P) := by
      simp only [cross, smul_x, smul_y, sub_x, sub_y]; ring
    rw [this]; nlinarith
  · have : cross (P - Q) (s • (A - P)) = s * cross (A - P) (Q - P) := by simp only [cross, smul_x, smul_y, sub_x, sub_y]; ring
    rw [this]; positivity

/-- The side on the left. -/
theorem inTriangle_left (h : S.Shut) (hf : StrictMono f) (hx : x < S.tri.size) (q : Vec T) (h0 : 0 ≤ s) (h1 : s ≤ 1) :
    InTriangle f S (S.tri.nextInFace (neg x)) ((apex S x q).map f - (q - S.vec x).map f + s • (q.map f - (apex S x q).map f)) := by
  obtain ⟨-, -, -, -, -, t6⟩ := triangle h hf hx q
  rw [inTriangle_iff h hf hx q]
  set P := (q - S.vec x).map f
  set A := (apex S x q).map f
  set Q := q.map f
  refine ⟨?_, ?_, ?_⟩
  · have : cross (A - P) (A - P + s • (Q - A)) = s * cross (A - P) (Q - P) := by
      simp only [cross, smul_x, smul_y, add_x, add_y, sub_x, sub_y]; ring
    rw [this]; positivity
  · have : cross (Q - A) (A - P + s • (Q - A) - (A - P)) = 0 := by
      simp only [cross, smul_x, smul_y, add_x, add_y, sub_x, sub_y]; ring
    rw [this]
  · have : cross (P - Q) (A - P + s • (Q - A)) = (1 - s) * cross (A - P) (Q - P) := by
      simp only [cross, smul_x, smul_y, add_x, add_y, sub_x, sub_y]; ring
    rw [this]; nlinarith

/-- We come to the half edge `x`, which ends at `q`, when leaving the source of `e`. -/
structure Comes (f : T →+* ℝ) (S : FlatTri T) (free : HE → Prop) (V : Vec ℝ) (e x : HE) (q : Vec T) (ε ρ l s : ℝ) : Prop where
  le : l ≤ 1
  nonneg : 0 ≤ s
  lt : s < 1
  atSource : s = 0 → free x
  eq : l • V = (q - S.vec x).map f + s • (q.map f - (q - S.vec x).map f)
  travels : Travels f S free V l (e, 0) (x, s • (q.map f - (q - S.vec x).map f))
  far : ε ≤ l * ρ

/-- We cross the half edge. -/
theorem Comes.across (h : S.Shut) (hf : StrictMono f) (hx : x < S.tri.size) (hc : Comes f S free V e x q ε ρ l s) :
    Travels f S free V l (e, 0) (S.tri.nextInFace (neg x), l • V - (q - S.vec x).map f) := by
  obtain ⟨t1, -, -, t4, -, -⟩ := triangle h hf hx q
  have h1 : Travels f S free V 0 (x, s • (S.vec x).map f) (neg x, (s - 1) • (S.vec x).map f) :=
    .glue hc.nonneg hc.lt.le hc.atSource fun k => absurd k hc.lt.ne
  have h2 : Travels f S free V 0 (neg x, (s - 1) • (S.vec x).map f) _ := .rotate
  have h3 := hc.travels
  rw [← t1] at h3
  have h4 := (h3.trans h1).trans h2
  rw [add_zero, add_zero, t4, t1] at h4
  convert h4 using 2
  rw [hc.eq]
  ext
  · simp only [add_x, sub_x, smul_x]; ring
  · simp only [add_y, sub_y, smul_y]; ring

theorem Comes.inTriangle (h : S.Shut) (hf : StrictMono f) (hx : x < S.tri.size) (hc : Comes f S free V e x q ε ρ l s) :
    InTriangle f S (S.tri.nextInFace (neg x)) (l • V - (q - S.vec x).map f) := by
  rw [hc.eq, add_sub_cancel_left]
  exact inTriangle_back h hf hx q hc.nonneg hc.lt.le

/-- Moving on in the triangle. -/
theorem Comes.goes (h : S.Shut) (hf : StrictMono f) (hx : x < S.tri.size) (hc : Comes f S free V e x q ε ρ l s) {l' : ℝ} (hl : l ≤ l')
    (ht : InTriangle f S (S.tri.nextInFace (neg x)) (l' • V - (q - S.vec x).map f)) :
    Travels f S free V l' (e, 0) (S.tri.nextInFace (neg x), l' • V - (q - S.vec x).map f) := by
  have e1 : l • V - (q - S.vec x).map f + (l' - l) • V = l' • V - (q - S.vec x).map f := by
    ext
    · simp only [add_x, sub_x, smul_x]; ring
    · simp only [add_y, sub_y, smul_y]; ring
  have h1 : Travels f S free V (l' - l) (S.tri.nextInFace (neg x), l • V - (q - S.vec x).map f) _ :=
    .move (sub_nonneg.2 hl) (hc.inTriangle h hf hx) (by rw [e1]; exact ht)
  have h2 := (hc.across h hf hx).trans h1
  rwa [e1, add_sub_cancel] at h2

/-- The end is in the triangle. -/
theorem Comes.here (h : S.Shut) (hf : StrictMono f) (hx : x < S.tri.size) (hc : Comes f S free V e x q ε ρ l s)
    (ht : InTriangle f S (S.tri.nextInFace (neg x)) (V - (q - S.vec x).map f)) :
    Travels f S free V 1 (e, 0) (S.tri.nextInFace (neg x), V - (q - S.vec x).map f) := by
  have := hc.goes h hf hx hc.le (by rw [one_smul]; exact ht)
  rwa [one_smul] at this

theorem Comes.le' (h : S.Shut) (hf : StrictMono f) (hx : x < S.tri.size) (hc : Comes f S free V e x q ε ρ l s) {l' : ℝ}
    (ht : InTriangle f S (S.tri.nextInFace (neg x)) (l' • V - (q - S.vec x).map f))
    (hn : ¬InTriangle f S (S.tri.nextInFace (neg x)) (V - (q - S.vec x).map f)) : l' < 1 := by
  by_contra hk
  push Not at hk
  exact hn (Spec.InTriangle.between (hc.inTriangle h hf hx) ht hc.le hk)

/-- We come to the side on the right. -/
theorem Comes.right (h : S.Shut) (hf : StrictMono f) (hx : x < S.tri.size) (hρ : 0 ≤ ρ) (hc : Comes f S free V e x q ε ρ l s)
    (hn : ¬InTriangle f S (S.tri.nextInFace (neg x)) (V - (q - S.vec x).map f))
    (hv : 0 < cross V ((S.vec x).map f)) (hp : 0 ≤ cross ((q - S.vec x).map f) V) (ha : 0 < cross V ((apex S x q).map f))
    (hfree : 0 < cross ((q - S.vec x).map f) V ∨ free (S.tri.nextInFace (neg x))) :
    ∃ l' s', Comes f S free V e (S.tri.nextInFace (neg x)) (apex S x q) ε ρ l' s' := by
  obtain ⟨t1, t2, t3, t4, t5, t6⟩ := triangle h hf hx q
  obtain ⟨-, -, k1, -, -⟩ := apex_spec (q := q) h hx
  rw [t1] at hv
  obtain ⟨l', s', a1, a2, a3, a4, a5⟩ := exit_right hc.eq t6 hv hp ha
  have ht : InTriangle f S (S.tri.nextInFace (neg x)) (l' • V - (q - S.vec x).map f) := by
    rw [a5, add_sub_cancel_left]
    exact inTriangle_right h hf hx q a2 a3.le
  have hg := hc.goes h hf hx a1 ht
  refine ⟨l', s', (hc.le' h hf hx ht hn).le, a2, a3, fun k => ?_, ?_, ?_, hc.far.trans (mul_le_mul_of_nonneg_right a1 hρ)⟩
  · rcases hfree with hfree | hfree
    · exact absurd k (a4 hfree).ne'
    · exact hfree
  · rw [k1]; exact a5
  · rw [k1]
    rwa [a5, add_sub_cancel_left] at hg

/-- We come to the side on the left. -/
theorem Comes.left (h : S.Shut) (hf : StrictMono f) (hx : x < S.tri.size) (hρ : 0 ≤ ρ) (hc : Comes f S free V e x q ε ρ l s)
    (hn : ¬InTriangle f S (S.tri.nextInFace (neg x)) (V - (q - S.vec x).map f))
    (hv : 0 < cross V ((S.vec x).map f)) (hq : 0 < cross V (q.map f)) (ha : cross V ((apex S x q).map f) ≤ 0) :
    ∃ l' s', l' < 1 ∧ (cross V ((apex S x q).map f) = 0 → s' = 0) ∧
      ((cross V ((apex S x q).map f) < 0 ∨ free (S.tri.nextInFace (S.tri.nextInFace (neg x)))) →
        Comes f S free V e (S.tri.nextInFace (S.tri.nextInFace (neg x))) q ε ρ l' s') ∧ ε ≤ l' * ρ ∧
      l' • V = (apex S x q).map f + s' • (q.map f - (apex S x q).map f) ∧
      Travels f S free V l' (e, 0) (S.tri.nextInFace (S.tri.nextInFace (neg x)), s' • (q.map f - (apex S x q).map f)) := by
  obtain ⟨t1, t2, t3, t4, t5, t6⟩ := triangle h hf hx q
  obtain ⟨-, -, -, k1, -⟩ := apex_spec (q := q) h hx
  rw [t1] at hv
  obtain ⟨l', s', a1, a2, a3, a4, a5, a6⟩ := exit_left hc.eq t6 hv hq ha
  have ht : InTriangle f S (S.tri.nextInFace (neg x)) (l' • V - (q - S.vec x).map f) := by
    have := inTriangle_left h hf hx q a2 a3.le
    rw [a6]
    convert this using 1
    abel
  have hg := hc.goes h hf hx a1 ht
  have hfar : ε ≤ l' * ρ := hc.far.trans (mul_le_mul_of_nonneg_right a1 hρ)
  have hr : Travels f S free V 0 (S.tri.nextInFace (neg x), l' • V - (q - S.vec x).map f) _ := .rotate
  have hg' := hg.trans hr
  have e1 : l' • V - (q - S.vec x).map f - (S.vec (S.tri.nextInFace (neg x))).map f = s' • (q.map f - (apex S x q).map f) := by
    rw [t2, a6]; abel
  rw [add_zero, e1] at hg'
  refine ⟨l', s', hc.le' h hf hx ht hn, a5, fun hfree => ⟨(hc.le' h hf hx ht hn).le, a2, a3, fun k => ?_, ?_, ?_, hfar⟩, hfar, a6, hg'⟩
  · rcases hfree with hfree | hfree
    · exact absurd k (a4 hfree).ne'
    · exact hfree
  · rw [k1]; exact a6
  · rw [k1]; exact hg'

/-- Moving from the source of `e` with velocity `V` for one unit of time gets us to a point. -/
def Arrives (f : T →+* ℝ) (S : FlatTri T) (free : HE → Prop) (V : Vec ℝ) (e : HE) (p : Point T) : Prop :=
  Normal S p ∧ ∃ d, Describes S d ∧ S.normalize d = .ok p ∧ Travels f S free V 1 (e, 0) (d.face, planePosition f S d)

/-- Moving from the source of `e` with velocity `V` gets us to the source of `t` at time `μ`. -/
def Meets (f : T →+* ℝ) (S : FlatTri T) (free : HE → Prop) (V : Vec ℝ) (e t : HE) (μ : ℝ) : Prop :=
  t < S.tri.size ∧ 0 < μ ∧ μ < 1 ∧ Travels f S free V μ (e, 0) (t, 0)

/-- What the search finds. -/
def Ends (f : T →+* ℝ) (S : FlatTri T) (free : HE → Prop) (v : Vec T) (e : HE) (ε ρ : ℝ) (r : Option (Except Err (Point T ⊕ Saddle))) : Prop :=
  (∃ p, r = some (.ok (.inl p)) ∧ Arrives f S free (v.map f) e p) ∨
  ∃ c μ, r = some (.ok (.inr c)) ∧ Meets f S free (v.map f) e c.target μ ∧ ε ≤ μ * ρ ∧ (S.saddleVector c).map f = μ • v.map f

theorem sub_map (u w : Vec T) : (u - w).map f = u.map f - w.map f := by
  ext
  · simp only [Vec.map, sub_x, map_sub]
  · simp only [Vec.map, sub_y, map_sub]

/-- A point in a triangle from its position in the plane. -/
theorem inFace_point {dbg : Bool} (h : Closed dbg S) (hf : StrictMono f) {e : HE} (he : e < S.tri.size) {w : Vec T}
    (hw : inFace (S.barycentric e w) = true) :
    Describes S ⟨e, (S.barycentric e w).1, (S.barycentric e w).2.1, (S.barycentric e w).2.2⟩ ∧
    planePosition f S ⟨e, (S.barycentric e w).1, (S.barycentric e w).2.1, (S.barycentric e w).2.2⟩ = w.map f := by
  obtain ⟨k1, k2⟩ := C31.barycentric_correct hf h he w
  unfold inFace at hw
  simp only [Bool.and_eq_true, decide_eq_true_eq] at hw
  exact ⟨⟨he, ⟨hw.1.1, hw.1.2, hw.2⟩, k2⟩, k1⟩

variable {P : Params T K}

theorem _root_.Verif.SaddleSearch.Ahead.wedge' {strict : Prop} {v : Vec T} {m : Machine T} (ha : Ahead P e strict v x q m) :
    0 < cross v (P.S.vec x) ∧ 0 ≤ cross (q - P.S.vec x) v ∧ (strict → 0 < cross (q - P.S.vec x) v) ∧ 0 < cross v q ∧ x < P.S.tri.size := by
  have hp' : 0 < cross (q - P.S.vec x) (P.S.vec x) := by rw [half_p]; exact ha.node.pos
  exact ⟨ha.half, ha.wedge.1, fun hs => cross_trans_le_lt hp' ha.node.half0 ha.half ha.node.p0 (ha.left' hs), ha.wedge.2, ha.node.lt⟩

theorem _root_.Verif.SaddleSearch.Soon.wedge {strict : Prop} {v : Vec T} {m : Machine T} (ha : Soon P e strict v x q m) :
    0 < cross v (P.S.vec x) ∧ 0 ≤ cross (q - P.S.vec x) v ∧ (strict → 0 < cross (q - P.S.vec x) v) ∧ 0 < cross v q ∧ x < P.S.tri.size := by
  obtain ⟨-, ha | ⟨m', ha, -⟩⟩ := ha
  · exact ha.wedge'
  · exact ha.wedge'

theorem pointSearch_step {Δ : Vec T} {F fuel : ℕ} {m m' : Machine T} {base : ℕ → ℤ} {d : Vec T}
    (h : incrementWithIntersections P F m = some (.ok (m', some (base, x)))) (hd : P.S.chainVector base = d) :
    pointSearch P Δ F (fuel + 1) m =
      if inFace (P.S.barycentric (P.S.tri.nextInFace (neg x)) (Δ - d)) then
        some ((P.S.normalize ⟨P.S.tri.nextInFace (neg x), (P.S.barycentric (P.S.tri.nextInFace (neg x)) (Δ - d)).1,
          (P.S.barycentric (P.S.tri.nextInFace (neg x)) (Δ - d)).2.1,
          (P.S.barycentric (P.S.tri.nextInFace (neg x)) (Δ - d)).2.2⟩).map .inl)
      else pointSearch P Δ F fuel m' := by
  conv_lhs => unfold pointSearch
  rw [h, ← hd]
  rfl

theorem pointSearch_skip {Δ : Vec T} {F fuel : ℕ} {m m' : Machine T} {c : Saddle} {w : CCW}
    (h : incrementWithIntersections P F m = some (.ok (m, none))) (hd : dereference P m = .ok c)
    (hw : Vec.ccw P.A Δ (P.S.saddleVector c) = w) (hw' : w ≠ .collinear) (hs : skipSector P m w = .ok m') :
    pointSearch P Δ F (fuel + 1) m = pointSearch P Δ F fuel m' := by
  conv_lhs => unfold pointSearch
  rw [h]
  simp only [Option.bind_some]
  rw [hd]
  simp only
  rw [hw]
  cases w with
  | collinear => exact absurd rfl hw'
  | clockwise => simp only [hs]
  | counterclockwise => simp only [hs]

theorem pointSearch_found {Δ : Vec T} {F fuel : ℕ} {m : Machine T} {c : Saddle}
    (h : incrementWithIntersections P F m = some (.ok (m, none))) (hd : dereference P m = .ok c)
    (hw : cross Δ (P.S.saddleVector c) = 0) (hne : Δ ≠ P.S.saddleVector c) (hpos : 0 < dot Δ (Δ - P.S.saddleVector c)) :
    pointSearch P Δ F (fuel + 1) m = some (.ok (.inr c)) := by
  unfold pointSearch
  rw [h]
  simp only [Option.bind_some]
  rw [hd]
  simp only
  have hw' : Vec.ccw P.A Δ (P.S.saddleVector c) = .collinear := by rw [ccw_eq, ccwExact_collinear, hw]
  rw [hw']
  simp only
  rw [if_neg]
  rintro ⟨-, k | k⟩
  · exact hne k
  · exact k ((orientation_same P.A).2 hpos)

/-- The search for the endpoint. -/
theorem search {dbg : Bool} (hC : Closed dbg P.S) (hr : P.radius = none) (hl : P.lower = .zero) (hf : StrictMono f) {v : Vec T}
    {strict : Prop} (hfree : strict ∨ ∀ y < P.S.tri.size, free y) (hρ : 0 < ρ) (hε : 0 < ε) (hV : dot (v.map f) (v.map f) = ρ ^ 2) {M : ℕ} {R : ℝ}
    (hR : ρ ≤ R)
    (hM : ∀ W, dot W W = 1 → ∀ m x q, Gets f P.S W m x q →
      (∃ s : ℝ, 0 ≤ s ∧ s ≤ 1 ∧ dot (q.map f - s • (P.S.vec x).map f) (q.map f - s • (P.S.vec x).map f) ≤ R ^ 2) → m ≤ M) :
    ∀ k n x q m l s, M < n + k → Soon P e strict v x q m → Comes f P.S free (v.map f) e x q ε ρ l s → 0 ≤ l →
      Gets f P.S (ρ⁻¹ • v.map f) n x q → ∀ F fuel, 2 ≤ F → 2 * k ≤ fuel →
      Ends f P.S free v e ε ρ (pointSearch P v F fuel m) := by
  have h := hC.shut
  have hW : dot (ρ⁻¹ • v.map f) (ρ⁻¹ • v.map f) = 1 := by
    have : dot (ρ⁻¹ • v.map f) (ρ⁻¹ • v.map f) = ρ⁻¹ ^ 2 * dot (v.map f) (v.map f) := by
      simp only [dot, smul_x, smul_y]; ring
    rw [this, hV, ← mul_pow, inv_mul_cancel₀ hρ.ne', one_pow]
  have hcW : ∀ z, cross (ρ⁻¹ • v.map f) z = ρ⁻¹ * cross (v.map f) z := fun z => by simp only [cross, smul_x, smul_y]; ring
  have hρ' : 0 < ρ⁻¹ := inv_pos.2 hρ
  have key0 : ∀ z : T, 0 ≤ z → 0 ≤ f z := fun z hz => by rw [← map_zero f]; exact hf.monotone hz
  have key1 : ∀ z : T, 0 < z → 0 < f z := fun z hz => by rw [← map_zero f]; exact hf hz
  intro k
  induction k with
  | zero =>
    intro n x q m l s hn _ hc hl0 hg
    exfalso
    have := hM _ hW n x q hg ⟨1 - s, by linarith [hc.lt], by linarith [hc.nonneg], ?_⟩
    · omega
    have e1 : q.map f - (1 - s) • (P.S.vec x).map f = l • v.map f := by
      rw [hc.eq, sub_map]
      ext
      · simp only [smul_x, sub_x, add_x]; ring
      · simp only [smul_y, sub_y, add_y]; ring
    rw [e1]
    have e2 : dot (l • v.map f) (l • v.map f) = l ^ 2 * ρ ^ 2 := by
      rw [← hV]; simp only [dot, smul_x, smul_y]; ring
    rw [e2]
    have h1 : l ^ 2 ≤ 1 := by nlinarith [hc.le]
    have h2 : ρ ^ 2 ≤ R ^ 2 := by nlinarith
    nlinarith [sq_nonneg ρ]
  | succ k ih =>
    intro n x q m l s hn hs hc hl0 hg F fuel hF hfuel
    obtain ⟨w1, w2, w3, w4, hx⟩ := hs.wedge
    obtain ⟨m', base, hnext, hbase, hinc⟩ := hs.intersection h hr
    obtain ⟨F, rfl⟩ : ∃ g, F = g + 2 := ⟨F - 2, by omega⟩
    obtain ⟨fuel, rfl⟩ : ∃ g, fuel = g + 2 := ⟨fuel - 2, by omega⟩
    rw [show fuel + 2 = (fuel + 1) + 1 from rfl, pointSearch_step (hinc F) hbase]
    have hn1 : P.S.tri.nextInFace (neg x) < P.S.tri.size := (apex_spec (q := q) h hx).1
    have hn2 := (apex_spec (q := q) h hx).2.1
    by_cases hin : inFace (P.S.barycentric (P.S.tri.nextInFace (neg x)) (v - (q - P.S.vec x))) = true
    · rw [if_pos hin]
      obtain ⟨d1, d2⟩ := inFace_point hC hf hn1 hin
      obtain ⟨p, p1, p2, p3⟩ := h.normalize d1
      refine .inl ⟨p, by rw [p1]; rfl, p2, _, d1, p1, ?_⟩
      rw [d2, sub_map]
      refine hc.here h hf hx ?_
      rw [← sub_map]
      exact (inFace_iff h hf hn1 _).1 hin
    · rw [if_neg hin]
      have hnot : ¬InTriangle f P.S (P.S.tri.nextInFace (neg x)) (v.map f - (q - P.S.vec x).map f) := by
        rw [← sub_map]
        exact fun k => hin ((inFace_iff h hf hn1 _).2 k)
      have v1 : 0 < cross (v.map f) ((P.S.vec x).map f) := by rw [cross_map]; exact key1 _ w1
      have v2 : 0 ≤ cross ((q - P.S.vec x).map f) (v.map f) := by rw [cross_map]; exact key0 _ w2
      have v4 : 0 < cross (v.map f) (q.map f) := by rw [cross_map]; exact key1 _ w4
      have hlnonneg : ∀ l', ε ≤ l' * ρ → 0 ≤ l' := fun l' hl' => by
        by_contra hk
        push Not at hk
        nlinarith
      have goRight : 0 < cross v (apex P.S x q) → ∀ m2, Soon P e strict v (P.S.tri.nextInFace (neg x)) (apex P.S x q) m2 →
          ∀ fuel', 2 * k ≤ fuel' → Ends f P.S free v e ε ρ (pointSearch P v (F + 2) fuel' m2) := fun ha m2 hm2 fuel' hfuel' => by
        have v3 : 0 < cross (v.map f) ((apex P.S x q).map f) := by rw [cross_map]; exact key1 _ ha
        obtain ⟨l', s', hc'⟩ := hc.right h hf hx hρ.le hnot v1 v2 v3 (by
          rcases hfree with hfree | hfree
          · refine .inl ?_
            rw [cross_map]; exact key1 _ (w3 hfree)
          · exact .inr (hfree _ hn1))
        exact ih (n + 1) _ _ m2 l' s' (by omega) hm2 hc' (hlnonneg _ hc'.far)
          (hg.right (by rw [hcW]; positivity)) (F + 2) fuel' (by omega) hfuel'
      have goLeft : cross v (apex P.S x q) ≤ 0 → (strict → cross v (apex P.S x q) < 0) → ∀ m2,
          Soon P e strict v (P.S.tri.nextInFace (P.S.tri.nextInFace (neg x))) q m2 →
          ∀ fuel', 2 * k ≤ fuel' → Ends f P.S free v e ε ρ (pointSearch P v (F + 2) fuel' m2) := fun ha ha' m2 hm2 fuel' hfuel' => by
        have v3 : cross (v.map f) ((apex P.S x q).map f) ≤ 0 := by rw [cross_map, ← map_zero f]; exact hf.monotone ha
        obtain ⟨l', s', -, -, hc', -, -, -⟩ := hc.left h hf hx hρ.le hnot v1 v4 v3
        have hc' := hc' (by
          rcases hfree with hfree | hfree
          · refine .inl ?_
            rw [cross_map, ← map_zero f]; exact hf (ha' hfree)
          · exact .inr (hfree _ hn2))
        exact ih (n + 1) _ _ m2 l' s' (by omega) hm2 hc' (hlnonneg _ hc'.far)
          (hg.left (by rw [hcW]; nlinarith)) (F + 2) fuel' (by omega) hfuel'
      rcases hnext with ⟨a1, a2, a3⟩ | ⟨a1, a2⟩ | hat
      · exact goLeft a1 a2 m' ⟨a3.toCourse, .inl a3⟩ (fuel + 1) (by omega)
      · exact goRight a1 m' ⟨a2.toCourse, .inl a2⟩ (fuel + 1) (by omega)
      · have hd := hat.dereference h hr hl
        have hvec : P.S.saddleVector ⟨e, P.S.tri.nextInFace (P.S.tri.nextInFace (neg x)), m'.edgeEnd⟩ = apex P.S x q := hat.vertex
        rcases lt_trichotomy (cross v (apex P.S x q)) 0 with ha | ha | ha
        · obtain ⟨m2, s1, s2⟩ := hat.skip_left h ha
          rw [pointSearch_skip (hat.intersection _) hd (w := .clockwise) (by rw [hvec, ccw_eq, ccwExact_clockwise]; exact ha)
            (by decide) s1]
          exact goLeft ha.le (fun _ => ha) m2 s2 fuel (by omega)
        · have v3 : cross (v.map f) ((apex P.S x q).map f) = 0 := by rw [cross_map, ha, map_zero]
          obtain ⟨μ, s', b1, b2, -, b3, b4, b5⟩ := hc.left h hf hx hρ.le hnot v1 v4 v3.le
          rw [b2 v3, zero_smul, add_zero] at b4
          rw [b2 v3, zero_smul] at b5
          have hμ : 0 < μ := by
            by_contra hk
            push Not at hk
            nlinarith
          have hdot : 0 < dot v (v - apex P.S x q) := by
            have e1 : f (dot v (v - apex P.S x q)) = (1 - μ) * ρ ^ 2 := by
              rw [← dot_map, sub_map, ← b4, ← hV]
              simp only [dot, smul_x, smul_y, sub_x, sub_y]; ring
            have : 0 < f (dot v (v - apex P.S x q)) := by
              rw [e1]
              exact mul_pos (by linarith) (by positivity)
            rwa [← map_zero f, hf.lt_iff_lt] at this
          refine .inr ⟨_, μ, pointSearch_found (hat.intersection _) hd ?_ ?_ ?_, ⟨hn2, hμ, b1, b5⟩, b3, ?_⟩
          · rw [hvec, ha]
          · rw [hvec]
            intro k
            rw [← k, sub_self] at hdot
            simp [dot] at hdot
          · rw [hvec]; exact hdot
          · rw [hvec, b4]
        · obtain ⟨m2, s1, s2⟩ := hat.skip_right h ha
          rw [pointSearch_skip (hat.intersection _) hd (w := .counterclockwise) (by rw [hvec, ccw_eq, ccwExact_ccw]; exact ha)
            (by decide) s1]
          exact goRight ha m2 s2 fuel (by omega)

end Move

end Verif
