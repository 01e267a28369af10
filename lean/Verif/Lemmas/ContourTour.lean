import Verif.Lemmas.ContourConcat
import Verif.Lemmas.CollapsedArea
import Verif.Lemmas.FlowComponent

/-!
# Going around the components of contours of collapsed surfaces
-/

set_option linter.unusedSectionVars false

namespace Verif.Collapsed

open Spec Contour Vertical Flow Vec

variable {T : Type} [CommRing T] [LinearOrder T] [IsStrictOrderedRing T]
variable {K : Type*} [Field K] [LinearOrder K] [IsStrictOrderedRing K]
variable {C : Collapsed T} {A : Option (Approx T K)} {dbg : Bool} {d : Component} {fuel : ℕ}

/-- The doubled area to the left of a path. -/
abbrev sweep (l : List (Vec T)) : T := shoelace 0 l

theorem sweep_append (l m : List (Vec T)) : sweep (l ++ m) = sweep l + sweep m + Vec.cross l.sum m.sum := by
  unfold sweep
  rw [shoelace_append, zero_add, show l.sum = l.sum + 0 by simp, shoelace_shift, add_zero]
  ring

/-- It does not matter where a closed path starts. -/
theorem sweep_rotate {l m : List (Vec T)} (h : (l ++ m).sum = 0) : sweep (l ++ m) = sweep (m ++ l) := by
  have h1 : m.sum = -l.sum := by
    rw [List.sum_append] at h
    exact (neg_eq_of_add_eq_zero_right h).symm
  rw [sweep_append, sweep_append, h1, cross_neg_right, cross_neg_left, cross_self]
  ring

variable (h : C.Good)

include h in
theorem Good.sweep_cross {e : HE} (he : e < C.tri.size) : sweep (C.cross e) = 0 := by
  have h1 := FlowComponent.shoelace_vertical (l := C.cross e) h.v0 (fun k hk => (h.inv.vert e (mem_net.2 he) k hk).1) 0
  rw [sweep, h1]
  simp

include h in
theorem Good.parallel {e f : HE} (he : e < C.tri.size) (hf : f < C.tri.size) : Vec.cross (C.cross e).sum (C.cross f).sum = 0 :=
  Net.parallel h.v0 (h.inv.cross_conn (mem_net.2 he)) (h.inv.cross_conn (mem_net.2 hf))

include h in
theorem Good.opp {e : HE} (he : e < C.tri.size) : C.vec e + C.vec (neg e) = (C.cross e).sum + (C.cross (neg e)).sum :=
  h.inv.opp e (mem_net.2 he) (h.closed e (mem_net.2 he))

/-- What has been collapsed at an edge. -/
abbrev seam (C : Collapsed T) (e : HE) : T := C.net.wedge e + C.net.wedge (neg e)

include h in
/-- The area when crossing back over an edge. -/
theorem Good.sweep_seam {e : HE} (he : e < C.tri.size) :
    Vec.cross (C.cross (neg e)).sum (-C.vec e) + Vec.cross (-C.vec e) (C.cross e).sum = seam C e := by
  have h1 := h.opp he
  have h2 := h.parallel he (h.neg_lt he)
  have h3 : C.vec (neg e) = (C.cross e).sum + (C.cross (neg e)).sum - C.vec e := by rw [← h1]; abel
  unfold seam Net.wedge
  change _ = Vec.cross (C.cross e).sum (C.vec e) + Vec.cross (C.cross (neg e)).sum (C.vec (neg e))
  rw [h3]
  generalize (C.cross e).sum = p at *
  generalize (C.cross (neg e)).sum = q at *
  generalize C.vec e = w at *
  unfold Vec.cross at *
  simp only [neg_x, neg_y, add_x, add_y, sub_x, sub_y]
  linear_combination h2

include h in
/-- Faces that have not been collapsed. -/
theorem Good.triangle {e : HE} (he : e < C.tri.size) (hn : C.tri.nextInFace e ≠ neg e) :
    C.vec (C.tri.nextInFace e) + C.vec (C.tri.previousInFace e) = -C.vec e ∧
    Vec.cross (C.vec (C.tri.nextInFace e)) (C.vec (C.tri.previousInFace e)) = C.net.corner e ∧ 0 < C.net.corner e := by
  have ht := (h.inv.face e (mem_net.2 he)).resolve_right fun k => hn k.1
  have h1 : C.vec e + C.vec (C.tri.nextInFace e) + C.vec (C.tri.previousInFace e) = 0 := by
    rw [h.previous ht]
    exact ht.2.1
  have h2 : C.vec (C.tri.previousInFace e) = -(C.vec e + C.vec (C.tri.nextInFace e)) := by
    rw [eq_neg_iff_add_eq_zero, ← h1]; abel
  have h3 : C.net.corner e = Vec.cross (C.vec e) (C.vec (C.tri.nextInFace e)) := if_neg ht.ne.2
  refine ⟨?_, ?_, by rw [h3]; exact ht.2.2⟩
  · rw [h2]; abel
  · rw [h2, h3, cross_neg_right, cross_add_right, cross_self, add_zero, ← cross_comm]

variable {p : HE → T} {f : HE → List (Vec T)} {e : HE} {m t : List HE} {L : List (Vec T)}

include h in
/-- The end of going around a tree. -/
theorem Good.tour_sum (hr : OK C.tri.size C.tri.nextInFace C.tri.previousInFace p) (ht : Tour C.tri.nextInFace C.tri.previousInFace p C.cross f e m t L)
    (he : e < C.tri.size) (hf : ∀ e < C.tri.size, (f (neg e)).sum = C.vec (neg e)) : L.sum = C.vec (neg e) := by
  induction ht with
  | leaf _ => exact hf _ he
  | @node e m t l m' t' l' hu _ _ ih ih' =>
    have c1 : Child (n := C.tri.size) C.tri.nextInFace C.tri.previousInFace p e (neg (C.tri.previousInFace e)) := ⟨he, hu, .inl rfl⟩
    have c2 : Child (n := C.tri.size) C.tri.nextInFace C.tri.previousInFace p e (neg (C.tri.nextInFace e)) := ⟨he, hu, .inr rfl⟩
    have i1 := ih (hr.child_lt c1)
    have i2 := ih' (hr.child_lt c2)
    rw [neg_neg'] at i1 i2
    have h1 := (h.triangle he (hr.up_nf he hu)).1
    have h2 := h.opp he
    simp only [List.sum_append]
    rw [i1, i2]
    have h3 : C.vec (neg e) = (C.cross e).sum + (C.cross (neg e)).sum + -C.vec e := by rw [← h2]; abel
    rw [h3, ← h1]
    abel

include h in
/-- The area of what is seen when going around a tree. -/
theorem Good.tour_sweep (hr : OK C.tri.size C.tri.nextInFace C.tri.previousInFace p)
    (ht : Tour C.tri.nextInFace C.tri.previousInFace p C.cross f e m t L) (he : e < C.tri.size)
    (hf : ∀ e < C.tri.size, (f (neg e)).sum = C.vec (neg e)) :
    sweep L = (m.map fun x => C.net.corner x + seam C x).sum + (t.map fun x => sweep (f x)).sum := by
  induction ht with
  | leaf _ => simp
  | @node e m t l m' t' l' hu k1 k2 ih ih' =>
    have c1 : Child (n := C.tri.size) C.tri.nextInFace C.tri.previousInFace p e (neg (C.tri.previousInFace e)) := ⟨he, hu, .inl rfl⟩
    have c2 : Child (n := C.tri.size) C.tri.nextInFace C.tri.previousInFace p e (neg (C.tri.nextInFace e)) := ⟨he, hu, .inr rfl⟩
    have i1 := ih (hr.child_lt c1)
    have i2 := ih' (hr.child_lt c2)
    have s1 := h.tour_sum hr k1 (hr.child_lt c1) hf
    have s2 := h.tour_sum hr k2 (hr.child_lt c2) hf
    rw [neg_neg'] at s1 s2
    obtain ⟨h1, h2, -⟩ := h.triangle he (hr.up_nf he hu)
    have h3 := h.sweep_seam he
    have h4 := h.parallel (h.neg_lt he) he
    simp only [sweep_append, h.sweep_cross he, h.sweep_cross (h.neg_lt he), List.sum_append, s1, s2, i1, i2, List.map_cons, List.map_append,
      List.sum_cons]
    rw [← h3, ← h2, ← h1]
    simp only [cross_add_left, cross_add_right, h4]
    ring

/-- What is seen when going around a tree. -/
theorem tour_perm (ht : Tour C.tri.nextInFace C.tri.previousInFace p C.cross f e m t L) :
    L.Perm (m.flatMap (fun x => C.cross x ++ C.cross (neg x)) ++ t.flatMap f) := by
  induction ht with
  | leaf _ => simp
  | @node e m t l m' t' l' hu k1 k2 ih ih' =>
    rw [← Multiset.coe_eq_coe] at ih ih' ⊢
    simp only [← Multiset.coe_add, List.flatMap_cons, List.flatMap_append] at ih ih' ⊢
    rw [ih, ih']
    abel

end Verif.Collapsed
