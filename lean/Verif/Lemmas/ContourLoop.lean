import Verif.Lemmas.ContourTour

/-!
# The perimeters of contours of collapsed surfaces are closed
-/

set_option linter.unusedSectionVars false

namespace Verif.Collapsed

open Spec Contour Vertical Flow Vec

variable {T : Type} [CommRing T] [LinearOrder T] [IsStrictOrderedRing T]
variable {K : Type*} [Field K] [LinearOrder K] [IsStrictOrderedRing K]
variable {C : Collapsed T} {A : Option (Approx T K)} {dbg : Bool} {d : Component} {fuel : ℕ}

theorem tour_node {nx pv : HE → HE} {p : HE → T} {V : Type} {k f : HE → List V} {e : HE} {m t : List HE} {L : List V}
    (h : Tour nx pv p k f e m t L) (hu : Up nx pv p e) : ∃ m1 t1 l1 m2 t2 l2, m = e :: (m1 ++ m2) ∧ t = t2 ++ t1 ∧
      L = k (neg e) ++ l2 ++ l1 ++ k e ∧ Tour nx pv p k f (neg (pv e)) m1 t1 l1 ∧ Tour nx pv p k f (neg (nx e)) m2 t2 l2 := by
  cases h with
  | leaf k => exact absurd hu k
  | node _ h1 h2 => exact ⟨_, _, _, _, _, _, rfl, rfl, rfl, h1, h2⟩

/-- The steps from one half edge to its negative. -/
abbrev bothWays (C : Collapsed T) (x : HE) : List (Vec T) := C.cross x ++ C.cross (neg x)

theorem sweep_single (w : Vec T) : sweep [w] = 0 := by
  change Vec.cross 0 (0 + w) + 0 = 0
  simp

variable (h : C.Good) (hu : C.Upright) (hV : C.tri.VertexesOk) (hf : C.tri.size ≤ fuel)
variable {mu md a b a' b' : List HE} {g g' : List (List HE × List HE)}

theorem seam_neg (x : HE) : seam C (neg x) = seam C x := by
  unfold seam
  rw [neg_neg']
  ring

include h hu in
/-- The part of the perimeter at the top. -/
theorem Frame.top_loop (F : Frame C d mu md a b g a' b' g') :
    (over C b ++ upper C d g ++ over C a).sum = C.vec (neg d.large) ∧
    sweep (over C b ++ upper C d g ++ over C a) = (mu.map fun x => C.net.corner x + seam C x).sum + (d.topEdges.map fun x => seam C x).sum ∧
    (over C b ++ upper C d g ++ over C a).Perm (mu.flatMap (bothWays C) ++ d.topEdges.flatMap fun x => C.cross x ++ [-C.vec (neg x)] ++ C.cross (neg x)) := by
  have hr : OK C.tri.size C.tri.nextInFace C.tri.previousInFace (across C) := (h.ready hu).ok
  have ht := F.up.tour hr F.lt F.pos C.cross fun x => [-C.vec (neg x)]
  have hs : ∀ e < C.tri.size, (C.cross (neg e) ++ [-C.vec (neg (neg e))] ++ C.cross (neg (neg e))).sum = C.vec (neg e) := by
    intro e he
    have h2 := h.opp he
    have h3 : C.vec (neg e) = (C.cross e).sum + (C.cross (neg e)).sum + -C.vec e := by rw [← h2]; abel
    rw [neg_neg']
    simp only [List.sum_append, List.sum_singleton]
    rw [h3]
    abel
  refine ⟨h.tour_sum hr ht F.lt hs, ?_, tour_perm ht⟩
  rw [h.tour_sweep hr ht F.lt hs]
  congr 2
  refine List.map_congr_left fun x hx => ?_
  have hx' := h.neg_lt (F.neg_lt x (List.mem_append_right _ hx))
  have h1 := h.sweep_seam hx'
  have h2 := h.parallel (F.neg_lt x (List.mem_append_right _ hx)) hx'
  rw [neg_neg', seam_neg] at h1
  simp only [sweep_append, h.sweep_cross hx', h.sweep_cross (F.neg_lt x (List.mem_append_right _ hx)), List.sum_append, List.sum_singleton,
    sweep_single, cross_add_left, h2]
  rw [← h1]
  ring

/-- The part of the perimeter at the bottom. -/
abbrev inner (C : Collapsed T) (d : Component) (a' b' : List HE) (g' : List (List HE × List HE)) : List (Vec T) :=
  over C b'.tail.dropLast ++ lower C d g' ++ over C a'.tail.dropLast

include h hu in
theorem Frame.bottom_loop (F : Frame C d mu md a b g a' b' g') :
    (inner C d a' b' g').sum = -C.vec (neg d.large) ∧
    sweep (inner C d a' b' g') = (md.map C.net.corner).sum + (md.tail.map fun x => seam C x).sum ∧
    (inner C d a' b' g').Perm (md.tail.flatMap (bothWays C) ++ d.bottomEdges.map C.vec) := by
  have hr : OK C.tri.size C.tri.nextInFace C.tri.previousInFace (across C) := (h.ready hu).ok
  have hl := h.neg_lt F.lt
  obtain ⟨su, sd⟩ := F.both h hu
  rcases F.size_cases h hu with ⟨k1, n2, k2, k3, k4, k5, k6, k7⟩ | ⟨n2, l1, l2, l3, l4⟩
  · obtain ⟨w0, -, -, -, w4⟩ := F.down.leaf_inv n2
    have e1 : inner C d a' b' g' = [C.vec d.large] := by
      unfold inner lower
      rw [k4, k5, k7, w4]
      simp [weave]
    rw [e1, w0, k7]
    refine ⟨?_, by rw [sweep_single]; simp, by simp⟩
    rcases h.inv.face d.large (mem_net.2 F.lt) with ht | ht
    · exfalso
      exact absurd k1 fun hx => by
        have t1 : C.tri.nextInFace (neg d.large) = d.large := by
          have := (hr.flat_neg F.lt).2 hx
          rwa [neg_neg'] at this
        exact ht.ne.2 (by
          change C.tri.nextInFace (C.tri.nextInFace d.large) = d.large
          rw [hx, t1])
    · rw [List.sum_singleton]
      exact eq_neg_of_add_eq_zero_left ht.2.2.2.1
  · have hp : 0 < -across C (neg d.large) := n2.1
    have ht := F.down.tour' (OK.reverse hr) hl hp C.cross fun x => [C.vec x]
    obtain ⟨m1, t1, i1, m2, t2, i2, q1, q2, q3, q4, q5⟩ := tour_node ht n2
    have e1 : inner C d a' b' g' = i2 ++ i1 := by
      obtain ⟨y, hy⟩ := List.head?_eq_some_iff.1 sd.b_head
      obtain ⟨x, hx⟩ := List.getLast?_eq_some_iff.1 (tail_getLast sd.a_last l3)
      have hy' : y ≠ [] := by
        rintro rfl
        rw [hy] at l4
        simp at l4
      rw [hx, hy, dropLast_cons hy'] at q3
      simp only [List.flatMap_append, List.flatMap_cons, List.flatMap_nil, List.append_nil, List.append_assoc] at q3
      have q3 := List.append_cancel_left q3
      simp only [← List.append_assoc] at q3
      have q3 := List.append_cancel_right q3
      unfold inner lower over
      rw [hx, hy, List.dropLast_concat, List.tail_cons]
      simp only [List.flatMap_append]
      exact q3
    have hs : ∀ e < C.tri.size, ([C.vec (neg e)]).sum = C.vec (neg e) := fun e _ => List.sum_singleton
    have hr' := OK.reverse hr
    have c1 := hr.neg_lt _ (hr.pv_lt _ hl)
    have c2 := hr.neg_lt _ (hr.nx_lt _ hl)
    have s1 := h.tour_sum hr' q4 c1 hs
    have s2 := h.tour_sum hr' q5 c2 hs
    rw [neg_neg'] at s1 s2
    obtain ⟨r1, r2, -⟩ := h.triangle hl (OK.up_nf hr' hl n2)
    refine ⟨?_, ?_, ?_⟩
    · rw [e1, List.sum_append, s1, s2, r1]
    · have z : ∀ t : List HE, (t.map fun x => sweep [C.vec x]).sum = 0 := fun t => List.sum_eq_zero fun y hy => by
        obtain ⟨x, -, rfl⟩ := List.mem_map.1 hy
        exact sweep_single _
      have w1 := h.tour_sweep hr' q4 c1 hs
      have w2 := h.tour_sweep hr' q5 c2 hs
      rw [z, add_zero, List.sum_map_add] at w1 w2
      rw [e1, sweep_append, s1, s2, r2, w1, w2, q1]
      simp only [List.map_cons, List.map_append, List.sum_cons, List.sum_append, List.tail_cons]
      ring
    · have w1 := tour_perm q4
      have w2 := tour_perm q5
      rw [e1, q1, q2]
      rw [← Multiset.coe_eq_coe] at w1 w2 ⊢
      simp only [← Multiset.coe_add, List.flatMap_append, List.tail_cons, List.map_append] at w1 w2 ⊢
      rw [w1, w2]
      have : ∀ t : List HE, t.flatMap (fun x => [C.vec x]) = t.map C.vec := fun t => by
        rw [List.map_eq_flatMap]
      rw [this, this]
      abel

include h hu hV hf in
/-- The perimeter of a component: it is closed, what is in it, and its area. -/
theorem Frame.loop (A : Option (Approx T K)) (dbg : Bool) (F : Frame C d mu md a b g a' b' g') :
    ∃ P, perimeter A dbg C fuel d = pure P ∧ P.sum = 0 ∧
      Vec.area2 P = (mu.map C.net.corner).sum + (md.map C.net.corner).sum + ((mu ++ d.topEdges ++ md.tail).map (seam C)).sum ∧
      P.Perm ((mu ++ d.topEdges ++ md.tail).flatMap (bothWays C) ++ (d.bottomEdges.map C.vec ++ d.topEdges.map fun x => -C.vec (neg x))) := by
  obtain ⟨t1, t2, t3⟩ := F.top_loop h hu
  obtain ⟨b1, b2, b3⟩ := F.bottom_loop h hu
  obtain ⟨p1, -⟩ := F.perimeter_ok h hu hV hf A dbg
  refine ⟨_, p1, ?_⟩
  generalize hZ : over C b ++ upper C d g ++ over C a = Z at *
  have e1 : lower C d g' ++ over C (a'.tail.dropLast ++ b) ++ (upper C d g ++ over C (a ++ b'.tail.dropLast)) =
      (lower C d g' ++ over C a'.tail.dropLast ++ Z) ++ over C b'.tail.dropLast := by
    rw [← hZ]
    unfold over
    simp only [List.flatMap_append, List.append_assoc]
  have e2 : over C b'.tail.dropLast ++ (lower C d g' ++ over C a'.tail.dropLast ++ Z) = inner C d a' b' g' ++ Z := by
    unfold inner
    simp only [List.append_assoc]
  have s0 : (inner C d a' b' g' ++ Z).sum = 0 := by
    rw [List.sum_append, b1, t1]
    abel
  have s1 : ((lower C d g' ++ over C a'.tail.dropLast ++ Z) ++ over C b'.tail.dropLast).sum = 0 := by
    rw [← s0, ← e2, List.sum_append, List.sum_append (l₁ := over C b'.tail.dropLast)]
    abel
  rw [e1]
  refine ⟨s1, ?_, ?_⟩
  · rw [Vec.area2_eq]
    change sweep _ = _
    have e3 : (mu.map fun x => C.net.corner x + seam C x).sum = (mu.map C.net.corner).sum + (mu.map (seam C)).sum := List.sum_map_add
    rw [sweep_rotate s1, e2, sweep_append, b1, b2, t1, t2, cross_neg_left, cross_self, e3]
    simp only [List.map_append, List.sum_append]
    ring
  · refine List.perm_append_comm.trans ?_
    rw [e2]
    refine (b3.append t3).trans ?_
    rw [← Multiset.coe_eq_coe]
    simp only [← Multiset.coe_add, List.flatMap_append]
    have : ∀ t : List HE, ((t.flatMap fun x => C.cross x ++ [-C.vec (neg x)] ++ C.cross (neg x) : List (Vec T)) : Multiset (Vec T)) =
        (t.flatMap (bothWays C) : List (Vec T)) + (t.map fun x => -C.vec (neg x) : List (Vec T)) := by
      intro t
      induction t with
      | nil => rfl
      | cons x t ih =>
        simp only [List.flatMap_cons, List.map_cons, ← Multiset.coe_add, ← List.singleton_append (l := t.map _)] at ih ⊢
        rw [ih]
        abel
    rw [this]
    abel

end Verif.Collapsed
