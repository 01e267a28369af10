import Verif.Lemmas.ContourLoop

/-!
# Summing up the components of contours of collapsed surfaces
-/

set_option linter.unusedSectionVars false

namespace Verif.Collapsed

open Spec Contour Vertical Flow Vec

variable {T : Type} [CommRing T] [LinearOrder T] [IsStrictOrderedRing T]
variable {K : Type*} [Field K] [LinearOrder K] [IsStrictOrderedRing K]
variable {C : Collapsed T} {A : Option (Approx T K)} {dbg : Bool} {d : Component} {fuel : ℕ}

/-- The side through which the flow enters or leaves alone. -/
def Chief (C : Collapsed T) (e : HE) : Prop :=
  Up C.tri.nextInFace C.tri.previousInFace (across C) e ∨ Up C.tri.nextInFace C.tri.previousInFace (fun x => -across C x) e

variable (h : C.Good) (hu : C.Upright)

open Classical in
include h hu in
theorem Good.chief_one {z : HE} (hz : z < C.tri.size) (ht : C.net.IsTri z) : (if Chief C z then (1 : T) else 0) +
    (if Chief C (C.tri.faces.fwd z) then (1 : T) else 0) + (if Chief C (C.tri.faces.fwd (C.tri.faces.fwd z)) then (1 : T) else 0) = 1 := by
  have h1 : C.tri.faces.fwd z ≠ z := ht.ne.1
  have h2 : C.tri.faces.fwd (C.tri.faces.fwd z) ≠ z := ht.ne.2
  have h4 : C.tri.faces.fwd (C.tri.faces.fwd z) ≠ C.tri.faces.fwd z := ht.next.ne.1
  have h3 : C.tri.faces.fwd (C.tri.faces.fwd (C.tri.faces.fwd z)) = z := ht.1
  have i1 : C.tri.faces.inv z = C.tri.faces.fwd (C.tri.faces.fwd z) := h.previous ht
  have i2 := h.linked.hf.left z
  have i3 := h.linked.hf.left (C.tri.faces.fwd z)
  have p1 : across C z ≠ 0 := hu z hz
  have p2 : across C (C.tri.faces.fwd z) ≠ 0 := hu _ (h.next_lt hz)
  have p3 : across C (C.tri.faces.fwd (C.tri.faces.fwd z)) ≠ 0 := hu _ (h.next_lt (h.next_lt hz))
  have f : across C z + across C (C.tri.faces.fwd z) + across C (C.tri.faces.fwd (C.tri.faces.fwd z)) = 0 := by
    unfold across
    rw [← Vec.cross_add_left, ← Vec.cross_add_left]
    have := ht.2.1
    change C.vec z + C.vec (C.tri.faces.fwd z) + C.vec (C.tri.faces.fwd (C.tri.faces.fwd z)) = 0 at this
    rw [this, Vec.cross_zero_left]
  have c : ∀ x y w, C.tri.faces.fwd x = y → C.tri.faces.inv x = w → y ≠ w → (Chief C x ↔
      (0 < across C x ∧ across C y < 0 ∧ across C w < 0) ∨ (across C x < 0 ∧ 0 < across C y ∧ 0 < across C w)) := by
    intro x y w e1 e2 hn
    unfold Chief Up
    simp only [Tri.nextInFace, Tri.previousInFace]
    rw [e1, e2]
    simp [hn]
  simp only [c _ _ _ rfl i1 h4.symm, c _ _ _ rfl i2 h2, c _ _ _ h3 i3 h1.symm]
  generalize across C z = a at *
  generalize across C (C.tri.faces.fwd z) = b at *
  generalize across C (C.tri.faces.fwd (C.tri.faces.fwd z)) = c at *
  rcases lt_or_gt_of_ne p1 with g1 | g1 <;> rcases lt_or_gt_of_ne p2 with g2 | g2 <;>
    rcases lt_or_gt_of_ne p3 with g3 | g3 <;> first
      | (exfalso; linarith)
      | simp [g1, g2, g3, g1.not_gt, g2.not_gt, g3.not_gt, h1, h2, h4, h1.symm, h2.symm, h4.symm]

open Classical in
include h hu in
theorem Good.sum_chief : ∑ z ∈ Finset.range C.tri.size, C.net.corner z =
    3 * ∑ z ∈ Finset.range C.tri.size, if Chief C z then C.net.corner z else 0 := by
  have hn : C.tri.faces.size ≤ C.tri.size := h.linked.hs.le
  have e1 := FlatTri.sum_fwd h.linked.hf hn fun e => if Chief C e then C.net.corner e else 0
  have e2 := FlatTri.sum_fwd h.linked.hf hn fun e => if Chief C (C.tri.faces.fwd e) then C.net.corner (C.tri.faces.fwd e) else 0
  have e3 : ∀ e ∈ Finset.range C.tri.size, C.net.corner e = (if Chief C e then C.net.corner e else 0) +
      (if Chief C (C.tri.faces.fwd e) then C.net.corner (C.tri.faces.fwd e) else 0) +
      (if Chief C (C.tri.faces.fwd (C.tri.faces.fwd e)) then C.net.corner (C.tri.faces.fwd (C.tri.faces.fwd e)) else 0) := by
    intro e he
    have he' : e ∈ C.net.L := he
    have c1 := h.corner_next he'
    have c2 := h.corner_next (h.inv.maps e he')
    change C.net.corner (C.tri.faces.fwd (C.tri.faces.fwd e)) = C.net.corner (C.tri.faces.fwd e) at c2
    rw [c2, c1]
    rcases h.inv.face e he' with ht | ht
    · have := h.chief_one hu (Finset.mem_range.1 he) ht
      calc C.net.corner e = C.net.corner e * 1 := (mul_one _).symm
        _ = _ := by rw [← this, mul_add, mul_add]; simp only [mul_ite, mul_one, mul_zero]
    · have hc : C.net.corner e = 0 := if_pos (by rw [ht.1]; exact ht.2.1)
      rw [hc]
      simp
  rw [Finset.sum_congr rfl e3, Finset.sum_add_distrib, Finset.sum_add_distrib, e2, e1]
  ring

variable {mu lu md ld : List HE}

open Classical in
include h hu in
/-- The triangles of a component. -/
theorem _root_.Verif.Contour.Built.corners (b : Built C.seen C.vertical d mu lu md ld) (hL : UniqueLarge C.seen C.vertical d.halfEdges) :
    (mu.map C.net.corner).sum + (md.map C.net.corner).sum = (d.halfEdges.map fun e => if Chief C e then C.net.corner e else 0).sum := by
  have hr := h.ready hu
  have ht : OK C.tri.size C.tri.nextInFace C.tri.previousInFace (across C) := hr.ok
  have n1 := (OK.nodup_tree ht b.up b.lt).1
  have hd := b.down
  rw [perp_neg] at hd
  have n2 := (OK.nodup_tree ht.reverse hd (h.neg_lt b.lt)).1
  have u := b.unique hr hL
  have m1 := u.mem_inner ht b.up
  have m2 := (Flow.Unique.reverse ht u).mem_inner (OK.reverse ht) hd
  rw [← List.sum_append, ← List.map_append]
  have e1 : ∀ l : List HE, (l.map fun e => if Chief C e then C.net.corner e else 0).sum =
      ((l.filter fun e => Chief C e).map C.net.corner).sum := by
    intro l
    induction l with
    | nil => rfl
    | cons x l ih =>
      by_cases hx : Chief C x
      · simp [hx, ih]
      · simp [hx, ih]
  rw [e1]
  refine List.Perm.sum_eq (List.Perm.map _ ?_)
  rw [List.perm_ext_iff_of_nodup]
  · intro x
    rw [List.mem_append, m1, m2, List.mem_filter]
    simp only [decide_eq_true_eq]
    unfold Chief
    constructor
    · rintro (⟨h1, h2⟩ | ⟨h1, h2⟩)
      · exact ⟨h1, .inl h2⟩
      · exact ⟨h1, .inr h2⟩
    · rintro ⟨h1, h2 | h2⟩
      · exact .inl ⟨h1, h2⟩
      · exact .inr ⟨h1, h2⟩
  · refine List.Nodup.append n1 n2 fun x h1 h2 => ?_
    have k1 := ((m1 x).1 h1).2.1
    have k2 := ((m2 x).1 h2).2.1
    linarith
  · exact b.part.nodup.filter _

include h hu in
/-- The edges of a component. -/
theorem _root_.Verif.Contour.Built.edges (b : Built C.seen C.vertical d mu lu md ld) (hL : UniqueLarge C.seen C.vertical d.halfEdges) :
    ((mu ++ d.topEdges ++ md.tail).flatMap fun x => [x, neg x]).Perm d.halfEdges := by
  have hr := h.ready hu
  have ht : OK C.tri.size C.tri.nextInFace C.tri.previousInFace (across C) := hr.ok
  have hd := b.down
  rw [perp_neg] at hd
  obtain ⟨n1, n3⟩ := OK.nodup_tree ht b.up b.lt
  have n2 := (OK.nodup_tree ht.reverse hd (h.neg_lt b.lt)).1
  have u := b.unique hr hL
  have m1 := u.mem_inner ht b.up
  have m2 := (Flow.Unique.reverse ht u).mem_inner (OK.reverse ht) hd
  have m3 := u.mem_leaf ht b.up
  have inj : Function.Injective Verif.neg := fun x y hxy => neg_inj'.1 hxy
  have tl : ∀ x, x ∈ md.tail ↔ x ∈ md ∧ x ≠ neg d.large := by
    intro x
    cases hd with
    | leaf _ => simp
    | node _ _ _ =>
      rw [List.nodup_cons] at n2
      simp only [List.tail_cons, List.mem_cons]
      constructor
      · exact fun hx => ⟨.inr hx, fun k => n2.1 (k ▸ hx)⟩
      · rintro ⟨rfl | hx, k⟩
        · exact absurd rfl k
        · exact hx
  have both : ∀ x, x ∈ d.halfEdges → Up C.tri.nextInFace C.tri.previousInFace (across C) x →
      Up C.tri.nextInFace C.tri.previousInFace (fun y => -across C y) (neg x) → x = d.large := fun x hx h1 h2 =>
    u.uniq x hx h1.1 (.inr ⟨h1, h2⟩)
  obtain ⟨P, hP⟩ : ∃ P, P = mu ++ lu ++ md.tail.map neg := ⟨_, rfl⟩
  have mem : ∀ x, x ∈ P ↔ x ∈ d.halfEdges ∧ 0 < across C x := by
    intro x
    rw [hP, List.mem_append, List.mem_append, m1, m3, List.mem_map]
    constructor
    · rintro ((hx | hx) | ⟨y, hy, rfl⟩)
      · exact ⟨hx.1, hx.2.1⟩
      · exact ⟨hx.1, hx.2.1⟩
      · obtain ⟨hy1, -⟩ := (tl y).1 hy
        obtain ⟨hy1, hy2⟩ := (m2 y).1 hy1
        have := hy2.1
        exact ⟨b.part.neg y hy1, (ht.pos_neg (b.part.lt y hy1)).2 (by linarith)⟩
    · rintro ⟨hx, hp⟩
      by_cases k1 : Up C.tri.nextInFace C.tri.previousInFace (across C) x
      · exact .inl (.inl ⟨hx, k1⟩)
      · by_cases k2 : Up C.tri.nextInFace C.tri.previousInFace (fun y => -across C y) (neg x)
        · refine .inr ⟨neg x, (tl _).2 ⟨(m2 _).2 ⟨b.part.neg x hx, k2⟩, fun k => ?_⟩, neg_neg' x⟩
          rw [neg_inj'] at k
          subst k
          rcases u.large with k3 | k3
          · exact OK.up_nf ht.reverse (h.neg_lt b.lt) k2 ((ht.flat_neg b.lt).2 k3)
          · exact k1 k3.1
        · exact .inl (.inr ⟨hx, hp, k1, k2⟩)
  have nd : P.Nodup := by
    rw [hP]
    refine List.Nodup.append (List.Nodup.append n1 n3 fun x h1 h2 => ?_) (n2.tail.map inj) fun x h1 h2 => ?_
    · exact ((m3 x).1 h2).2.2.1 ((m1 x).1 h1).2
    · obtain ⟨y, hy, rfl⟩ := List.mem_map.1 h2
      obtain ⟨hy, hy'⟩ := (tl y).1 hy
      have hy2 := (m2 y).1 hy
      rcases List.mem_append.1 h1 with k | k
      · have k := (m1 _).1 k
        have := both _ k.1 k.2 (by rw [neg_neg']; exact hy2.2)
        exact hy' (by rw [← this, neg_neg'])
      · exact ((m3 _).1 k).2.2.2 (by rw [neg_neg']; exact hy2.2)
  have e1 : ((mu ++ d.topEdges ++ md.tail).flatMap fun x => [x, neg x]).Perm (P ++ P.map neg) := by
    have key : ∀ l : List HE, ((l.flatMap fun x => [x, neg x] : List HE) : Multiset HE) = (l : Multiset HE) + (l.map neg : List HE) := by
      intro l
      induction l with
      | nil => rfl
      | cons x l ih =>
        rw [List.flatMap_cons, ← Multiset.coe_add, ih, List.map_cons, ← Multiset.cons_coe x l, ← Multiset.cons_coe (neg x)]
        rw [show (([x, neg x] : List HE) : Multiset HE) = {x} + {neg x} from rfl, ← Multiset.singleton_add, ← Multiset.singleton_add]
        abel
    have mm : ∀ l : List HE, (l.map neg).map neg = l := fun l => by
      rw [List.map_map]
      conv_rhs => rw [← List.map_id l]
      exact List.map_congr_left fun x _ => neg_neg' x
    have e3 : (d.topEdges : Multiset HE) = (lu.map neg : List HE) := by
      rw [b.top]
      exact Multiset.coe_eq_coe.2 (List.reverse_perm _)
    have e4 : ((d.topEdges.map neg : List HE) : Multiset HE) = lu := by
      rw [← Multiset.map_coe, e3, Multiset.map_coe, mm]
    rw [← Multiset.coe_eq_coe, hP]
    simp only [List.flatMap_append, ← Multiset.coe_add, key, List.map_append, mm, e4]
    rw [e3]
    abel
  refine e1.trans ?_
  rw [List.perm_ext_iff_of_nodup _ b.part.nodup]
  · intro x
    rw [List.mem_append, List.mem_map]
    constructor
    · rintro (hx | ⟨y, hy, rfl⟩)
      · exact ((mem x).1 hx).1
      · exact b.part.neg _ ((mem y).1 hy).1
    · intro hx
      have hx' := b.part.lt x hx
      rcases lt_or_gt_of_ne (ht.ne x hx') with k | k
      · exact .inr ⟨neg x, (mem _).2 ⟨b.part.neg x hx, (ht.pos_neg hx').2 k⟩, neg_neg' x⟩
      · exact .inl ((mem x).2 ⟨hx, k⟩)
  · refine List.Nodup.append nd (nd.map inj) fun x h1 h2 => ?_
    obtain ⟨y, hy, rfl⟩ := List.mem_map.1 h2
    obtain ⟨hy1, hy2⟩ := (mem y).1 hy
    exact absurd ((mem _).1 h1).2 ((ht.neg_neg (b.part.lt y hy1)).2 hy2).not_gt

end Verif.Collapsed
