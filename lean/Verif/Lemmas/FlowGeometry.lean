import Verif.Lemmas.FlowClip

/-!
# Funnels of monotone polygons
-/

namespace Verif.FlowTriangulation

open Verif Vec

variable {T : Type} [CommRing T] [LinearOrder T] [IsStrictOrderedRing T]

/-- For a vertex `q` at the bottom, the segment from `a` to `u` is above it; for a vertex at the top it is below. -/
def Sees (side : Bool) (a q u : Vec T) : Prop := if side then 0 < cross (q - a) (u - a) else cross (q - a) (u - a) < 0

/-- The polygon is not convex at `q`. -/
def Bend (side : Bool) (a q r : Vec T) : Prop := if side then cross (q - a) (r - q) ≤ 0 else 0 ≤ cross (q - a) (r - q)

/-- Points are listed from left to right. On a vertical, they are listed from bottom to top or from top to bottom. -/
structure Ordered (v : Vec T) (l : List (Vec T)) : Prop where
  right : l.Pairwise fun p q => 0 ≤ cross (q - p) v
  ne : l.Pairwise fun p q => p ≠ q
  line : ∀ p q r, [p, q, r].Sublist l → cross (q - p) v = 0 → cross (r - q) v = 0 → 0 < dot (q - p) (r - q)

omit [IsStrictOrderedRing T] in
theorem Ordered.sub {v : Vec T} {l l' : List (Vec T)} (h : Ordered v l) (hs : l'.Sublist l) : Ordered v l' :=
  ⟨h.right.sublist hs, h.ne.sublist hs, fun p q r hp => h.line p q r (hp.trans hs)⟩

theorem eq_zero_of_cross {v b c : Vec T} (h1 : cross b v ≠ 0) (h2 : cross c v = 0) (h3 : cross b c = 0) : c = 0 := by
  unfold cross at *
  have e1 : (b.x * v.y - b.y * v.x) * c.x = 0 := by linear_combination v.x * h3 + b.x * h2
  have e2 : (b.x * v.y - b.y * v.x) * c.y = 0 := by linear_combination v.y * h3 + b.y * h2
  ext
  · exact (mul_eq_zero.1 e1).resolve_left h1
  · exact (mul_eq_zero.1 e2).resolve_left h1

theorem cross_parallel {v b c : Vec T} (hv : v ≠ 0) (hb : cross b v = 0) (hc : cross c v = 0) : cross b c = 0 := by
  by_contra h
  have e1 : cross b c * v.x = 0 := by unfold cross at *; linear_combination c.x * hb - b.x * hc
  have e2 : cross b c * v.y = 0 := by unfold cross at *; linear_combination c.y * hb - b.y * hc
  apply hv
  ext
  · exact (mul_eq_zero.1 e1).resolve_left h
  · exact (mul_eq_zero.1 e2).resolve_left h

theorem cross_dot {b c w : Vec T} (h : cross b c = 0) : dot b b * cross c w = dot b c * cross b w := by
  unfold cross dot at *
  linear_combination (-(b.x * w.x) - b.y * w.y) * h

theorem geom {v b c d : Vec T} (hv : v ≠ 0) (hb : 0 ≤ cross b v) (hc : 0 ≤ cross c v) (hd : 0 ≤ cross d v) (hc0 : c ≠ 0) (hb0 : b ≠ 0)
    (l1 : cross b v = 0 → cross c v = 0 → 0 < dot b c) (l2 : cross c v = 0 → cross d v = 0 → 0 < dot c d)
    {s : T} (h1 : 0 < s * cross b (c + d)) (h2 : s * cross b c ≤ 0) : 0 < s * cross c (c + d) := by
  have key : cross b v * cross c (c + d) = cross c v * cross b (c + d) - cross (c + d) v * cross b c := by
    unfold cross; simp only [add_x, add_y]; ring
  have hw : cross (c + d) v = cross c v + cross d v := cross_add_left _ _ _
  rcases hb.lt_or_eq with hb' | hb'
  · have e : cross b v * (s * cross c (c + d)) = cross c v * (s * cross b (c + d)) + cross (c + d) v * -(s * cross b c) := by
      linear_combination s * key
    have t2 : 0 ≤ cross (c + d) v * -(s * cross b c) := mul_nonneg (by rw [hw]; exact add_nonneg hc hd) (by linarith)
    rcases hc.lt_or_eq with hc' | hc'
    · have t1 := mul_pos hc' h1
      exact (mul_pos_iff_of_pos_left hb').1 (by rw [e]; linarith)
    · have hbc : cross b c ≠ 0 := fun hx => hc0 (eq_zero_of_cross hb'.ne' hc'.symm hx)
      have hs : s ≠ 0 := by rintro rfl; simp at h1
      have hneg : 0 < -(s * cross b c) := by
        rcases h2.lt_or_eq with h | h
        · linarith
        · exact absurd h (mul_ne_zero hs hbc)
      rcases hd.lt_or_eq with hd' | hd'
      · have t1 : 0 < cross (c + d) v * -(s * cross b c) := mul_pos (by rw [hw]; linarith) hneg
        exact (mul_pos_iff_of_pos_left hb').1 (by rw [e, ← hc']; linarith)
      · exfalso
        have hcd := cross_parallel hv hc'.symm hd'.symm
        have k := cross_dot (w := b) hcd
        rw [cross_add_right] at h1
        have k2 : dot c c * (s * cross b d) = dot c d * (s * cross b c) := by
          linear_combination -s * k + dot c c * s * cross_comm d b - dot c d * s * cross_comm c b
        have k3 : dot c c * (s * cross b d) ≤ 0 := by
          rw [k2]; exact mul_nonpos_of_nonneg_of_nonpos (l2 hc'.symm hd'.symm).le h2
        have k4 : s * cross b d ≤ 0 := by
          by_contra hx
          exact absurd k3 (not_le.2 (mul_pos (dot_self_pos hc0) (not_le.1 hx)))
        rw [mul_add] at h1
        linarith
  · have e : cross c v * (s * cross b (c + d)) + cross (c + d) v * -(s * cross b c) = 0 := by
      rw [← hb'] at key
      linear_combination -s * key
    have t2 : 0 ≤ cross (c + d) v * -(s * cross b c) := mul_nonneg (by rw [hw]; exact add_nonneg hc hd) (by linarith)
    have hc' : cross c v = 0 := by
      by_contra hx
      have := mul_pos (lt_of_le_of_ne hc (Ne.symm hx)) h1
      linarith
    have k := cross_dot (w := c + d) (cross_parallel hv hb'.symm hc')
    have k2 : dot b b * (s * cross c (c + d)) = dot b c * (s * cross b (c + d)) := by linear_combination s * k
    have k3 := mul_pos (l1 hb'.symm hc') h1
    rw [← k2] at k3
    exact (mul_pos_iff_of_pos_left (dot_self_pos hb0)).1 k3

theorem Sees.step {v : Vec T} (hv : v ≠ 0) {side : Bool} {a q r u : Vec T} (h : Sees side a q u) (hb : Bend side a q r)
    (ho : Ordered v [a, q, r, u]) : Sees side q r u := by
  have hr := ho.right
  have hn := ho.ne
  simp only [List.pairwise_cons, List.mem_cons, List.not_mem_nil, or_false, forall_eq_or_imp, forall_eq] at hr hn
  have l1 := ho.line a q r (by simp)
  have l2 := ho.line q r u (List.sublist_cons_self _ _)
  have e1 : u - a = (q - a) + ((r - q) + (u - r)) := by abel
  have e2 : u - q = (r - q) + (u - r) := by abel
  have n1 : r - q ≠ 0 := fun hx => hn.2.1.1 (sub_eq_zero.1 hx).symm
  have n2 : q - a ≠ 0 := fun hx => hn.1.1 (sub_eq_zero.1 hx).symm
  have g := fun s : T => geom hv hr.1.1 hr.2.1.1 hr.2.2.1 n1 n2 l1 l2 (s := s)
  unfold Sees Bend at *
  rw [e2]
  rw [e1, cross_add_right, cross_self, zero_add] at h
  cases side
  · simp only [Bool.false_eq_true, if_false] at *
    have := g (-1) (by linarith) (by linarith)
    linarith
  · simp only [if_true] at *
    have := g 1 (by linarith) (by linarith)
    linarith

end Verif.FlowTriangulation
