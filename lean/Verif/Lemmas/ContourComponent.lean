import Verif.Lemmas.Contour
import Mathlib.Algebra.BigOperators.Group.Finset.Basic
import Mathlib.Algebra.Order.BigOperators.Group.List

/-!
# Perimeters of components
-/

set_option linter.unusedSectionVars false

namespace Verif.Contour

open Spec Tri FlatTri Vec Vertical Flow

variable {T : Type} [CommRing T] [LinearOrder T] [IsStrictOrderedRing T]
variable {S : FlatTri T} {v : Vec T} {d : Component} {mu lu md ld : List HE}

namespace Built

theorem lt (b : Built S v d mu lu md ld) : d.large < S.tri.size := b.part.lt _ b.mem

theorem pos' (h : Ready S v) (b : Built S v d mu lu md ld) : 0 < perp S (-v) (Verif.neg d.large) := by
  rw [perp_neg]
  simp only
  rw [(h.ok).odd _ b.lt]
  linarith [b.pos]

theorem mem_of_desc {p : HE → T} {c : List HE} (hc : Part S c) {x y : HE} (hx : x ∈ c)
    (hr : Relation.ReflTransGen (Child (n := S.tri.size) S.tri.nextInFace S.tri.previousInFace p) x y) : y ∈ c := by
  induction hr with
  | refl => exact hx
  | tail _ hs ih =>
    rcases hs.2.2 with rfl | rfl
    · exact hc.neg _ (hc.pv _ ih)
    · exact hc.neg _ (hc.nx _ ih)

theorem mem_up (h : Ready S v) (b : Built S v d mu lu md ld) {x : HE} (hx : x ∈ lu) :
    x ∈ d.halfEdges ∧ 0 < perp S v x := by
  have ht := h.ok
  obtain ⟨h1, -⟩ := (ht.mem_tree b.up b.lt x).2.1 hx
  exact ⟨mem_of_desc b.part b.mem h1, ht.desc_pos b.pos h1⟩

theorem mem_down (h : Ready S v) (b : Built S v d mu lu md ld) {x : HE} (hx : x ∈ ld) :
    x ∈ d.halfEdges ∧ perp S v x < 0 := by
  have ht := (h.ok).reverse
  obtain ⟨h1, -⟩ := (OK.mem_tree ht b.down (h.ok.neg_lt _ b.lt) x).2.1 hx
  refine ⟨mem_of_desc b.part (b.part.neg _ b.mem) h1, ?_⟩
  have := OK.desc_pos ht (b.pos' h) h1
  rw [perp_neg] at this
  linarith

theorem top_left (h : Ready S v) (b : Built S v d mu lu md ld) : RightToLeft S v d.topEdges := by
  rw [b.top]
  intro x hx
  obtain ⟨y, hy, rfl⟩ := List.mem_map.1 (List.mem_reverse.1 hx)
  obtain ⟨y1, y2⟩ := b.mem_up h hy
  exact (h.ok.neg_neg (b.part.lt y y1)).2 y2

theorem bottom_right (h : Ready S v) (b : Built S v d mu lu md ld) : LeftToRight S v d.bottomEdges := by
  rw [b.bottom]
  intro x hx
  obtain ⟨y, hy, rfl⟩ := List.mem_map.1 (List.mem_reverse.1 hx)
  obtain ⟨y1, y2⟩ := b.mem_down h hy
  exact (h.ok.pos_neg (b.part.lt y y1)).2 y2

theorem top_runs (h : S.Shut) (hv : NoVertical S v) (b : Built S v d mu lu md ld) :
    RunsAlong S (Verif.neg d.large) d.topEdges ∧ RightToLeft S v d.topEdges := by
  refine ⟨?_, b.top_left (ready h hv)⟩
  rw [b.top]
  exact RunsAlong.reverse h b.lt (fun x hx => b.part.lt x (b.mem_up (ready h hv) hx).1) (tree_runs h b.up b.lt)

theorem bottom_runs (h : S.Shut) (hv : NoVertical S v) (b : Built S v d mu lu md ld) :
    RunsAlong S d.large d.bottomEdges ∧ LeftToRight S v d.bottomEdges := by
  refine ⟨?_, b.bottom_right (ready h hv)⟩
  rw [b.bottom]
  have := RunsAlong.reverse h (h.neg_lt b.lt) (fun x hx => b.part.lt x (b.mem_down (ready h hv) hx).1) (tree_runs h b.down (h.neg_lt b.lt))
  rwa [neg_neg'] at this

theorem perimeter_sub (h : Ready S v) (b : Built S v d mu lu md ld) {x : HE} (hx : x ∈ d.perimeter) :
    x ∈ d.halfEdges := by
  unfold Component.perimeter at hx
  rw [b.top, b.bottom, List.mem_append, List.mem_reverse, List.mem_reverse, List.mem_map, List.mem_map] at hx
  rcases hx with ⟨y, hy, rfl⟩ | ⟨y, hy, rfl⟩
  · exact b.part.neg _ (b.mem_down h hy).1
  · exact b.part.neg _ (b.mem_up h hy).1

theorem nodup (h : Ready S v) (b : Built S v d mu lu md ld) : d.perimeter.Nodup := by
  have ht := h.ok
  have n1 := (ht.nodup_tree b.up b.lt).2
  have n2 := (OK.nodup_tree ht.reverse b.down (h.ok.neg_lt _ b.lt)).2
  have inj : Function.Injective Verif.neg := fun x y hxy => neg_inj'.1 hxy
  unfold Component.perimeter
  refine List.Nodup.append ?_ ?_ ?_
  · rw [b.bottom]; exact List.nodup_reverse.2 (n2.map inj)
  · rw [b.top]; exact List.nodup_reverse.2 (n1.map inj)
  · intro x h1 h2
    have k1 := b.bottom_right h x h1
    have k2 := b.top_left h x h2
    exact absurd k1 k2.not_gt

/-- Components with a unique large edge. -/
theorem unique (h : Ready S v) (b : Built S v d mu lu md ld) (hu : UniqueLarge S v d.halfEdges) :
    Flow.Unique S.tri.size S.tri.nextInFace S.tri.previousInFace (perp S v) (· ∈ d.halfEdges) d.large := by
  have ht := h.ok
  refine ⟨b.part.lt, b.part.neg, b.part.nx, b.part.pv, b.mem, b.pos, (h.flow_large_iff b.lt b.pos).2 b.large,
    fun x hx hp hl => ?_⟩
  rcases hu _ b.mem x hx b.large ((h.flow_large_iff (b.part.lt x hx) hp).1 hl) with h1 | h1
  · exact h1
  · exfalso
    rw [h1] at hp
    exact absurd ((ht.pos_neg b.lt).1 hp) b.pos.not_gt

theorem mem_iff (h : Ready S v) (b : Built S v d mu lu md ld) (hu : UniqueLarge S v d.halfEdges) (x : HE) :
    Verif.neg x ∈ ld ↔ x ∈ lu := by
  have hd := b.down
  rw [perp_neg] at hd
  exact (b.unique h hu).mem_below (h.ok) b.up hd x

theorem neg_perimeter (h : Ready S v) (b : Built S v d mu lu md ld) (hu : UniqueLarge S v d.halfEdges) {x : HE}
    (hx : x ∈ d.perimeter) : Verif.neg x ∈ d.perimeter := by
  unfold Component.perimeter at hx ⊢
  rw [b.top, b.bottom, List.mem_append, List.mem_reverse, List.mem_reverse, List.mem_map, List.mem_map] at hx ⊢
  rcases hx with ⟨y, hy, rfl⟩ | ⟨y, hy, rfl⟩
  · refine .inr ⟨Verif.neg y, (b.mem_iff h hu _).1 (by rwa [neg_neg']), rfl⟩
  · refine .inl ⟨Verif.neg y, (b.mem_iff h hu _).2 hy, rfl⟩

/-! ### Areas -/

theorem area (h : S.Shut) (hv : NoVertical S v) (b : Built S v d mu lu md ld) :
    area2 S d = (mu.map S.faceArea).sum + (md.map S.faceArea).sum := by
  have key : ∀ (l : List HE), (∀ x ∈ l, x < S.tri.size) → (l.map Verif.neg).reverse.map S.vec = ((l.map S.vec).map (-·)).reverse := by
    intro l hl
    rw [List.map_reverse, List.map_map, List.map_map]
    congr 1
    exact List.map_congr_left fun x hx => h.flat.odd x (hl x hx)
  have s1 := (b.bottom_runs h hv).1.sum
  have s2 := (b.top_runs h hv).1.sum
  rw [h.flat.odd _ b.lt] at s2
  unfold area2 Component.perimeter
  rw [area2_eq, List.map_append, shoelace_append, s1, zero_add,
    show S.vec d.large = S.vec d.large + 0 by simp, shoelace_shift, s2, b.top, b.bottom,
    key _ fun x hx => b.part.lt x (b.mem_up (ready h hv) hx).1, key _ fun x hx => b.part.lt x (b.mem_down (ready h hv) hx).1,
    shoelace_reverse, shoelace_reverse, tree_area h b.up b.lt, tree_area h b.down (h.neg_lt b.lt), cross_neg_right, cross_self]
  ring

/-- The side through which the flow enters or leaves alone. -/
def chief (S : FlatTri T) (v : Vec T) (e : HE) : Prop :=
  Up S.tri.nextInFace S.tri.previousInFace (perp S v) e ∨ Up S.tri.nextInFace S.tri.previousInFace (perp S (-v)) e

open Classical in
theorem area_sum (h : S.Shut) (hv : NoVertical S v) (b : Built S v d mu lu md ld) (hu : UniqueLarge S v d.halfEdges) :
    area2 S d = (d.halfEdges.map fun e => if chief S v e then S.faceArea e else 0).sum := by
  have ht := transverse h hv
  have n1 := (ht.nodup_tree b.up b.lt).1
  have n2 := (OK.nodup_tree ht.reverse b.down (h.neg_lt b.lt)).1
  have u := b.unique (ready h hv) hu
  have hd := b.down
  rw [perp_neg] at hd
  have m1 := u.mem_inner ht b.up
  have m2 := (Flow.Unique.reverse ht u).mem_inner (OK.reverse ht) hd
  rw [b.area h hv, ← List.sum_append, ← List.map_append]
  have e1 : ∀ l : List HE, (l.map fun e => if chief S v e then S.faceArea e else 0).sum =
      ((l.filter fun e => chief S v e).map S.faceArea).sum := by
    intro l
    induction l with
    | nil => rfl
    | cons x l ih =>
      by_cases hx : chief S v x
      · simp [hx, ih]
      · simp [hx, ih]
  rw [e1]
  refine List.Perm.sum_eq (List.Perm.map _ ?_)
  rw [List.perm_ext_iff_of_nodup]
  · intro x
    rw [List.mem_append, m1, m2, List.mem_filter]
    unfold chief
    rw [perp_neg]
    simp only [decide_eq_true_eq]
    tauto
  · refine List.Nodup.append n1 n2 fun x h1 h2 => ?_
    have k1 := ((m1 x).1 h1).2.1
    have k2 := ((m2 x).1 h2).2.1
    linarith
  · exact b.part.nodup.filter _

end Built

theorem chief_iff (h : S.Shut) {e : HE} (he : e < S.tri.size) : Built.chief S v e ↔
    (0 < perp S v e ∧ perp S v (S.tri.nextInFace e) < 0 ∧ perp S v (S.tri.nextInFace (S.tri.nextInFace e)) < 0) ∨
    (perp S v e < 0 ∧ 0 < perp S v (S.tri.nextInFace e) ∧ 0 < perp S v (S.tri.nextInFace (S.tri.nextInFace e))) := by
  have n3 : S.tri.nextInFace e ≠ S.tri.nextInFace (S.tri.nextInFace e) := (h.ne he).2.2.1
  unfold Built.chief Up
  rw [perp_neg, prev_eq h.flat]
  simp only [Left.neg_pos_iff, Left.neg_neg_iff]
  clear he
  tauto

/-- One side of each face. -/
theorem chief_one (h : S.Shut) (hv : NoVertical S v) {e : HE} (he : e < S.tri.size) :
    (Built.chief S v e ∧ ¬ Built.chief S v (S.tri.faces.fwd e) ∧ ¬ Built.chief S v (S.tri.faces.fwd (S.tri.faces.fwd e))) ∨
    (¬ Built.chief S v e ∧ Built.chief S v (S.tri.faces.fwd e) ∧ ¬ Built.chief S v (S.tri.faces.fwd (S.tri.faces.fwd e))) ∨
    (¬ Built.chief S v e ∧ ¬ Built.chief S v (S.tri.faces.fwd e) ∧ Built.chief S v (S.tri.faces.fwd (S.tri.faces.fwd e))) := by
  have ht := transverse h hv
  have c1 := chief_iff h (v := v) he
  have c2 := chief_iff h (v := v) (h.next_lt he)
  have c3 := chief_iff h (v := v) (h.next_lt (h.next_lt he))
  have f := ((ht.face e he).resolve_left fun hx => (h.ne he).2.2.2.2.1 hx.1.symm).2
  have p1 := ht.ne e he
  have p2 := ht.ne _ (ht.nx_lt e he)
  have p3 := ht.ne _ (ht.pv_lt e he)
  rw [prev_eq h.flat] at f p3
  unfold Tri.nextInFace at *
  rw [h.next3] at c2 c3
  rw [c1, c2, c3]
  clear c1 c2 c3
  generalize perp S v e = a at *
  generalize perp S v (S.tri.faces.fwd e) = b at *
  generalize perp S v (S.tri.faces.fwd (S.tri.faces.fwd e)) = c at *
  rcases lt_or_gt_of_ne p1 with g1 | g1 <;> rcases lt_or_gt_of_ne p2 with g2 | g2 <;>
    rcases lt_or_gt_of_ne p3 with g3 | g3 <;> first
      | (exfalso; linarith)
      | simp [g1, g2, g3, g1.not_gt, g2.not_gt, g3.not_gt]

open Classical in
theorem sum_chief (h : S.Shut) (hv : NoVertical S v) :
    S.area2 = ∑ e ∈ Finset.range S.tri.size, if Built.chief S v e then S.faceArea e else 0 := by
  have hn : S.tri.faces.size ≤ S.tri.size := h.flat.coh.hs.le
  have e1 := sum_fwd h.flat.coh.hf hn fun e => if Built.chief S v e then S.faceArea e else 0
  have e2 := sum_fwd h.flat.coh.hf hn fun e => if Built.chief S v (S.tri.faces.fwd e) then S.faceArea (S.tri.faces.fwd e) else 0
  have e3 : ∀ e ∈ Finset.range S.tri.size, S.faceArea e = (if Built.chief S v e then S.faceArea e else 0) +
      (if Built.chief S v (S.tri.faces.fwd e) then S.faceArea (S.tri.faces.fwd e) else 0) +
      (if Built.chief S v (S.tri.faces.fwd (S.tri.faces.fwd e)) then S.faceArea (S.tri.faces.fwd (S.tri.faces.fwd e)) else 0) := by
    intro e he
    rw [h.flat.faceArea_fwd (S.tri.faces.fwd e), h.flat.faceArea_fwd e]
    rcases chief_one h hv (Finset.mem_range.1 he) with ⟨h1, h2, h3⟩ | ⟨h1, h2, h3⟩ | ⟨h1, h2, h3⟩ <;> simp [h1, h2, h3]
  have e4 := h.flat.area2_sum
  rw [Finset.sum_congr rfl e3, Finset.sum_add_distrib, Finset.sum_add_distrib, e2, e1] at e4
  have h3 : (3 : T) ≠ 0 := by norm_num
  refine mul_left_cancel₀ h3 ?_
  rw [e4]
  ring

end Verif.Contour
