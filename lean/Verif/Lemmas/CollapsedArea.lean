import Verif.Lemmas.CollapsedFlips
import Verif.Lemmas.Flat

/-!
# The area of collapsed surfaces
-/

set_option linter.unusedSectionVars false

namespace Verif.Collapsed

open Verif Spec

variable {T : Type} [CommRing T] [LinearOrder T] [IsStrictOrderedRing T]
variable {K : Type*} [Field K] [LinearOrder K] [IsStrictOrderedRing K]
variable {C C' : Collapsed T} {e z : HE}

theorem triangle_area (u w k : Vec T) (h : u + w + k = 0) : Vec.area2 [u, w, k] = Vec.cross u w := by
  have hx : u.x + w.x + k.x = 0 := by simpa using congrArg Vec.x h
  have hy : u.y + w.y + k.y = 0 := by simpa using congrArg Vec.y h
  simp only [Vec.area2, List.foldl_cons, List.foldl_nil, Vec.cross, Vec.add_x, Vec.add_y, Vec.zero_x, Vec.zero_y]
  linear_combination (u.x + w.x) * hy - (u.y + w.y) * hx

theorem polygonArea2_triangle (dbg : Bool) (u w k : Vec T) (h : u + w + k = 0) (hp : 0 ≤ Vec.cross u w) :
    polygonArea2 dbg [u, w, k] = .ok (Vec.cross u w) := by
  unfold polygonArea2
  rw [triangle_area u w k h, if_neg, if_neg]
  · exact fun j => not_lt.2 hp j.2
  · refine fun j => j.2 ?_
    simpa [add_assoc] using h

theorem foldlM_sum {α : Type} (F : T → α → Except Err T) (g : α → T) (l : List α) (h : ∀ x ∈ l, ∀ s, F s x = .ok (s + g x)) (s : T) :
    l.foldlM F s = .ok (s + (l.map g).sum) := by
  induction l generalizing s with
  | nil => simp [Pure.pure, Except.pure]
  | cons x l ih =>
    rw [List.foldlM_cons, h x (by simp)]
    simp only [bind, Except.bind]
    rw [ih fun y hy => h y (by simp [hy]), List.map_cons, List.sum_cons, add_assoc]

/-- The half edge with the smallest index in its face. -/
abbrev first (C : Collapsed T) (e : HE) : Prop := e ≤ C.tri.faces.fwd e ∧ e ≤ C.tri.faces.inv e

theorem sum_cross (l : List (Vec T)) (w : Vec T) : (l.map fun k => Vec.cross k w).sum = Vec.cross l.sum w := by
  induction l with
  | nil => simp
  | cons k l ih => rw [List.map_cons, List.sum_cons, ih, List.sum_cons, Vec.cross_add_left]

theorem conn_area {v k w : Vec T} (hv : v ≠ 0) (h : Vec.cross k v = 0 ∧ Vec.dot k v * Vec.cross w v < 0) : 0 < Vec.cross k w := by
  have h1 := Net.parallel_mul (w := w) h.1
  have h2 := Net.dot_self_pos hv
  by_contra hc
  push Not at hc
  nlinarith [h.2]

theorem list_sum_range (n : ℕ) (g : ℕ → T) : ((List.range n).map g).sum = ∑ z ∈ Finset.range n, g z := by
  induction n with
  | zero => simp
  | succ n ih => rw [List.range_succ, List.map_append, List.sum_append, ih, Finset.sum_range_succ]; simp

namespace Good

variable (h : C.Good)

include h

theorem areaStep_eq (dbg : Bool) (hz : z < C.tri.size) (s : T) :
    areaStep dbg C s z = .ok (s + (C.net.wedge z + if C.first z then C.net.corner z else 0)) := by
  have hb : ¬ C.tri.boundary z = true := by
    unfold Tri.boundary
    rw [beq_iff_eq]
    exact Tri.Inv.ne_fix h.inv (mem_net.2 hz)
  have hconn : (C.cross z).foldlM (fun area k => do return area + (← polygonArea2 dbg [k, C.vec z - k, -C.vec z])) s =
      .ok (s + C.net.wedge z) := by
    rw [foldlM_sum _ (fun k => Vec.cross k (C.vec z)), sum_cross]
    · rfl
    · intro k hk s
      have hk' := conn_area h.v0 (h.inv.vert z (mem_net.2 hz) k hk)
      change 0 < Vec.cross k (C.vec z) at hk'
      have e1 : Vec.cross k (C.vec z - k) = Vec.cross k (C.vec z) := by rw [Vec.cross_sub_right, Vec.cross_self, sub_zero]
      rw [polygonArea2_triangle dbg _ _ _ (by abel) (by rw [e1]; exact hk'.le), e1]
      rfl
  unfold areaStep
  rw [if_neg hb]
  simp only [bind, Except.bind, Pure.pure, Except.pure] at hconn ⊢
  rw [hconn]
  dsimp only
  rcases h.inv.face z (mem_net.2 hz) with ht | ht
  · have hp := h.previous ht
    have n1 : C.tri.nextInFace z ≠ C.tri.previousInFace z := by
      rw [hp]
      exact ht.next.ne.1.symm
    have hc : C.net.corner z = Vec.cross (C.vec z) (C.vec (C.tri.nextInFace z)) := if_neg ht.ne.2
    rw [if_neg n1, hc]
    have hi : C.tri.previousInFace z = C.tri.faces.inv z := rfl
    by_cases k1 : z > C.tri.nextInFace z
    · rw [if_pos k1, if_neg (fun k => absurd k.1 (not_le.2 k1)), add_zero]
    · by_cases k2 : z > C.tri.previousInFace z
      · rw [if_neg k1, if_pos k2, if_neg (fun k => absurd k.2 (not_le.2 k2)), add_zero]
      · rw [if_neg k1, if_neg k2, if_pos ⟨not_lt.1 k1, not_lt.1 k2⟩]
        rw [polygonArea2_triangle dbg (C.vec z) (C.vec (C.tri.nextInFace z)) _ ?_ ht.2.2.le]
        · dsimp only
          rw [add_assoc]
        · rw [hp]
          exact ht.2.1
  · have hc : C.net.corner z = 0 := if_pos (by rw [ht.1]; exact ht.2.1)
    rcases h.previous_cases hz with k | ⟨k1, k2, k3⟩
    · have k1 : C.tri.nextInFace z = neg z := ht.1
      have k3 : C.tri.nextInFace (neg z) = z := ht.2.1
      rw [k1, k3] at k
      have h1 := h.linked.hf.left (neg z)
      rw [show C.tri.faces.fwd (neg z) = z from k3] at h1
      exact absurd (h1.symm.trans k) (neg_ne z)
    · rw [if_pos (by rw [k1, k2]), hc]
      simp

theorem corner_next (hz : z ∈ C.net.L) : C.net.corner (C.tri.faces.fwd z) = C.net.corner z := by
  rcases h.inv.face z hz with ht | ht
  · have e1 : C.net.corner z = Vec.cross (C.net.vec z) (C.net.vec (C.net.f z)) := if_neg ht.ne.2
    have e2 : C.net.corner (C.net.f z) = Vec.cross (C.net.vec (C.net.f z)) (C.net.vec (C.net.f (C.net.f z))) := if_neg ht.next.ne.2
    change C.net.corner (C.net.f z) = _
    have hw : C.net.vec (C.net.f (C.net.f z)) = -(C.net.vec z + C.net.vec (C.net.f z)) := by
      rw [eq_neg_iff_add_eq_zero, ← ht.2.1]; abel
    rw [e1, e2, hw, Vec.cross_neg_right, Vec.cross_add_right, Vec.cross_self, add_zero, ← Vec.cross_comm]
  · have h1 : C.net.f z = neg z := ht.1
    have h2 : C.net.f (neg z) = z := ht.2.1
    change C.net.corner (C.net.f z) = _
    unfold Net.corner
    rw [h1, h2, h1, if_pos rfl, if_pos rfl]

theorem first_unique (ht : C.net.IsTri z) : (if C.first z then (1 : T) else 0) + (if C.first (C.tri.faces.fwd z) then (1 : T) else 0) +
      (if C.first (C.tri.faces.fwd (C.tri.faces.fwd z)) then (1 : T) else 0) = 1 := by
  have h1 : C.tri.faces.fwd z ≠ z := ht.ne.1
  have h2 : C.tri.faces.fwd (C.tri.faces.fwd z) ≠ z := ht.ne.2
  have h4 : C.tri.faces.fwd (C.tri.faces.fwd z) ≠ C.tri.faces.fwd z := ht.next.ne.1
  have h3 : C.tri.faces.fwd (C.tri.faces.fwd (C.tri.faces.fwd z)) = z := ht.1
  have i1 : C.tri.faces.inv z = C.tri.faces.fwd (C.tri.faces.fwd z) := h.previous ht
  have i2 := h.linked.hf.left z
  have i3 := h.linked.hf.left (C.tri.faces.fwd z)
  unfold first
  rw [i1, i2, i3, h3]
  clear i1 i2 i3 h3 ht
  generalize C.tri.faces.fwd (C.tri.faces.fwd z) = w at *
  generalize C.tri.faces.fwd z = y at *
  rcases Nat.lt_trichotomy z y with h5 | h5 | h5 <;> rcases Nat.lt_trichotomy z w with h6 | h6 | h6 <;>
    rcases Nat.lt_trichotomy y w with h7 | h7 | h7 <;> first
    | (exfalso; omega)
    | (simp only [show (z ≤ y ∧ z ≤ w) ↔ True by simp; omega, show (y ≤ w ∧ y ≤ z) ↔ False by simp; omega,
        show (w ≤ z ∧ w ≤ y) ↔ False by simp; omega]; simp)
    | (simp only [show (z ≤ y ∧ z ≤ w) ↔ False by simp; omega, show (y ≤ w ∧ y ≤ z) ↔ True by simp; omega,
        show (w ≤ z ∧ w ≤ y) ↔ False by simp; omega]; simp)
    | (simp only [show (z ≤ y ∧ z ≤ w) ↔ False by simp; omega, show (y ≤ w ∧ y ≤ z) ↔ False by simp; omega,
        show (w ≤ z ∧ w ≤ y) ↔ True by simp; omega]; simp)

theorem sum_corner : ∑ z ∈ Finset.range C.tri.size, C.net.corner z =
    3 * ∑ z ∈ Finset.range C.tri.size, if C.first z then C.net.corner z else 0 := by
  have hn : C.tri.faces.size ≤ C.tri.size := h.linked.hs.le
  have e1 := FlatTri.sum_fwd h.linked.hf hn fun e => if C.first e then C.net.corner e else 0
  have e2 := FlatTri.sum_fwd h.linked.hf hn fun e => if C.first (C.tri.faces.fwd e) then C.net.corner (C.tri.faces.fwd e) else 0
  have e3 : ∀ e ∈ Finset.range C.tri.size, C.net.corner e = (if C.first e then C.net.corner e else 0) +
      (if C.first (C.tri.faces.fwd e) then C.net.corner (C.tri.faces.fwd e) else 0) +
      (if C.first (C.tri.faces.fwd (C.tri.faces.fwd e)) then C.net.corner (C.tri.faces.fwd (C.tri.faces.fwd e)) else 0) := by
    intro e he
    have he' : e ∈ C.net.L := he
    have c1 := h.corner_next he'
    have c2 := h.corner_next (h.inv.maps e he')
    change C.net.corner (C.tri.faces.fwd (C.tri.faces.fwd e)) = C.net.corner (C.tri.faces.fwd e) at c2
    rw [c2, c1]
    rcases h.inv.face e he' with ht | ht
    · have := h.first_unique ht
      calc C.net.corner e = C.net.corner e * 1 := (mul_one _).symm
        _ = _ := by rw [← this, mul_add, mul_add]; simp only [mul_ite, mul_one, mul_zero]
    · have hc : C.net.corner e = 0 := if_pos (by rw [ht.1]; exact ht.2.1)
      rw [hc]
      simp
  rw [Finset.sum_congr rfl e3, Finset.sum_add_distrib, Finset.sum_add_distrib, e2, e1]
  ring

theorem area2_eq (dbg : Bool) : ∃ a, area2 dbg C = .ok a ∧ 3 * a = C.net.total := by
  refine ⟨_, foldlM_sum (areaStep dbg C) (fun z => C.net.wedge z + if C.first z then C.net.corner z else 0) _ (fun z hz s =>
    h.areaStep_eq dbg (by simpa [Tri.halfEdges] using hz) s) 0, ?_⟩
  rw [zero_add, show C.tri.halfEdges = List.range C.tri.size from rfl, list_sum_range]
  unfold Net.total
  rw [Finset.sum_add_distrib, mul_add, ← h.sum_corner, Finset.mul_sum, ← Finset.sum_add_distrib]
  rfl

end Good

end Verif.Collapsed
