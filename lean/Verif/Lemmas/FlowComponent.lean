import Verif.Model.FlowComponent
import Verif.Spec.FlowComponent
import Verif.Lemmas.FlowResult
import Verif.Lemmas.Vertical

/-!
# Lemmas about flow components
-/

namespace Verif.FlowComponent

open Verif Vec Vertical Spec FlowTriangulation

variable {T : Type} [CommRing T] [LinearOrder T] [IsStrictOrderedRing T]

theorem cross_sum (v : Vec T) (l : List (Vec T)) : cross l.sum v = (l.map fun w => cross w v).sum := by
  induction l with
  | nil => simp [cross]
  | cons w l ih => rw [List.sum_cons, List.map_cons, List.sum_cons, ← ih, cross_add_left]

theorem dot_sum (v : Vec T) (l : List (Vec T)) : dot v l.sum = (l.map fun w => dot v w).sum := by
  induction l with
  | nil => simp [dot]
  | cons w l ih =>
    rw [List.sum_cons, List.map_cons, List.sum_cons, ← ih]
    simp only [dot, add_x, add_y]; ring

theorem width_foldl (vec : HE → Vec T) (v : Vec T) (l : List Connection) (z : T) :
    l.foldl (fun sum c => let width := projectPerpendicular v (vec c.key); if width > 0 then sum + width else sum) z =
      z + (l.map fun c => max 0 (cross (vec c.key) v)).sum := by
  induction l generalizing z with
  | nil => simp
  | cons c l ih =>
    rw [List.foldl_cons, ih, List.map_cons, List.sum_cons, projectPerpendicular_eq]
    dsimp only
    split_ifs with h
    · rw [max_eq_right h.le]; ring
    · rw [max_eq_left (not_lt.1 h)]; ring

theorem width_spec {vec : HE → Vec T} {v : Vec T} {bottom top : List Connection} (h : Perimeter vec v bottom top) :
    widthRelative vec v (bottom ++ top) = cross (bottom.map fun c => vec c.key).sum v := by
  unfold widthRelative
  rw [width_foldl, zero_add, List.map_append, List.sum_append, cross_sum, List.map_map]
  have h1 : (bottom.map fun c => max 0 (cross (vec c.key) v)) = bottom.map ((fun w => cross w v) ∘ fun c => vec c.key) := by
    refine List.map_congr_left fun c hc => max_eq_right ?_
    exact h.polygon.right _ (List.mem_append_left _ (List.mem_map.2 ⟨c, hc, rfl⟩))
  have h2 : ∀ x ∈ top.map fun c => max 0 (cross (vec c.key) v), x = 0 := by
    intro x hx
    obtain ⟨c, hc, rfl⟩ := List.mem_map.1 hx
    have := h.polygon.right (-vec c.key) (List.mem_append_right _ (List.mem_map.2 ⟨c, List.mem_reverse.2 hc, rfl⟩))
    rw [cross_neg_left] at this
    exact max_eq_left (by linarith)
  rw [h1, List.sum_eq_zero h2, add_zero]

/-! ### Holonomy -/

omit [LinearOrder T] [IsStrictOrderedRing T] in
theorem positions_pos (vec : HE → Vec T) (l : List Connection) (m : HE → Option (Vec T)) (pos : Vec T) :
    (positions vec l m pos).2 = pos + (l.map fun c => vec c.key).sum := by
  induction l generalizing m pos with
  | nil => simp [positions]
  | cons c l ih => rw [positions, ih, List.map_cons, List.sum_cons, add_assoc]

omit [LinearOrder T] [IsStrictOrderedRing T] in
theorem positions_other (vec : HE → Vec T) {l : List Connection} (m : HE → Option (Vec T)) (pos : Vec T) {x : HE}
    (hx : x ∉ l.map Connection.key) : (positions vec l m pos).1 x = m x := by
  induction l generalizing m pos with
  | nil => rfl
  | cons c l ih =>
    rw [List.map_cons, List.mem_cons, not_or] at hx
    rw [positions, ih _ _ hx.2]
    split_ifs <;> simp [Function.update_of_ne hx.1]

omit [LinearOrder T] [IsStrictOrderedRing T] in
theorem positions_append (vec : HE → Vec T) (l l' : List Connection) (m : HE → Option (Vec T)) (pos : Vec T) :
    positions vec (l ++ l') m pos = positions vec l' (positions vec l m pos).1 (positions vec l m pos).2 := by
  induction l generalizing m pos with
  | nil => rfl
  | cons c l ih => rw [List.cons_append, positions, ih, positions]

omit [LinearOrder T] [IsStrictOrderedRing T] in
theorem positions_at {vec : HE → Vec T} {l l' : List Connection} {c : Connection}
    (hnd : ((l ++ c :: l').map Connection.key).Nodup) :
    (c.kind = .bottom → (positions vec (l ++ c :: l') (fun _ => none) 0).1 c.key = some (l.map fun c => vec c.key).sum) ∧
    (c.kind = .top → (positions vec (l ++ c :: l') (fun _ => none) 0).1 c.key =
      some ((l.map fun c => vec c.key).sum + vec c.key)) := by
  have hn : c.key ∉ l'.map Connection.key := by
    rw [List.map_append, List.nodup_append] at hnd
    exact (List.nodup_cons.1 hnd.2.1).1
  rw [positions_append, positions, positions_other _ _ _ hn, positions_pos, zero_add]
  constructor <;> intro hk <;> simp [hk]

omit [LinearOrder T] [IsStrictOrderedRing T] in
theorem walk_append (p : Vec T) (a b : List (Vec T)) : walk p (a ++ b) = walk p a ++ walk (p + a.sum) b := by
  induction a generalizing p with
  | nil => simp [walk]
  | cons w a ih => simp [walk, ih, add_assoc]

omit [LinearOrder T] [IsStrictOrderedRing T] in
theorem walk_last (p : Vec T) {a : List (Vec T)} (ha : a ≠ []) : ∃ l, walk p a = l ++ [p + a.sum] := by
  obtain ⟨a, w, rfl⟩ := (List.eq_nil_or_concat' a).resolve_left ha
  exact ⟨walk p a, by rw [walk_append]; simp [walk, add_assoc]⟩

omit [LinearOrder T] [IsStrictOrderedRing T] in
theorem mem_walk (p : Vec T) {a : List (Vec T)} (b : List (Vec T)) (ha : a ≠ []) : p + a.sum ∈ walk p (a ++ b) := by
  obtain ⟨l, hl⟩ := walk_last p ha
  rw [walk_append, hl]
  simp

omit [LinearOrder T] [IsStrictOrderedRing T] in
theorem mem_walk_dropLast (p : Vec T) {a b : List (Vec T)} (ha : a ≠ []) (hb : b ≠ []) :
    p + a.sum ∈ (walk p (a ++ b)).dropLast := by
  obtain ⟨l, hl⟩ := walk_last p ha
  obtain ⟨l', hl'⟩ := walk_last (p + a.sum) hb
  rw [walk_append, hl, hl', ← List.append_assoc, List.dropLast_concat]
  simp

omit [IsStrictOrderedRing T] in
theorem polygon_distinct {v : Vec T} {a b a' b' : List (Vec T)} {w w' : Vec T} (h : MonotonePolygon v (a ++ w :: b) (a' ++ w' :: b'))
    (hw : w = w') : a.sum ≠ a'.sum := by
  intro he
  have hd := h.distinct
  unfold corners at hd
  rw [List.cons_append, List.nodup_cons, List.nodup_append] at hd
  obtain ⟨d0, d1, d2, d3⟩ := hd
  rw [List.mem_append, not_or] at d0
  by_cases ha : a = []
  · subst ha
    by_cases ha' : a' = []
    · subst ha'
      rw [List.nil_append, List.nil_append] at *
      have m1 : w ∈ walk 0 (w :: b) := by simp [walk]
      by_cases hb' : b' = []
      · subst hb'
        have hc := h.closed
        have h3 := h.three
        simp only [List.length_cons, List.length_nil] at h3
        have hb : b ≠ [] := by rintro rfl; simp at h3
        obtain ⟨l, hl⟩ := walk_last (0 + w) hb
        have hs : b.sum = 0 := by
          rw [List.sum_cons, List.sum_cons, ← hw] at hc
          simpa using hc
        rw [walk, hl, hs, List.nodup_cons] at d1
        apply d1.1
        simp
      · have m2 : w ∈ (walk 0 (w' :: b')).dropLast := by
          have := mem_walk_dropLast 0 (a := [w']) (b := b') (by simp) hb'
          rw [← hw] at this ⊢
          simpa using this
        exact d3 _ m1 _ m2 rfl
    · apply d0.2
      have := mem_walk_dropLast 0 (a := a') (b := w' :: b') ha' (by simp)
      rw [← he] at this
      simpa using this
  · have m1 := mem_walk 0 (w :: b) ha
    by_cases ha' : a' = []
    · subst ha'
      apply d0.1
      rw [he] at m1
      simpa using m1
    · have m2 := mem_walk_dropLast 0 (a := a') (b := w' :: b') ha' (by simp)
      rw [← he] at m2
      exact d3 _ m1 _ m2 rfl

omit [LinearOrder T] [IsStrictOrderedRing T] in
theorem neg_sum (l : List Connection) (vec : HE → Vec T) :
    (l.reverse.map fun c => -vec c.key).sum = -(l.map fun c => vec c.key).sum := by
  rw [List.map_reverse, List.sum_reverse]
  induction l with
  | nil => simp
  | cons c l ih => rw [List.map_cons, List.sum_cons, ih, List.map_cons, List.sum_cons]; abel

theorem translations_spec (dbg : Bool) {vec : HE → Vec T} {v : Vec T} {bottom top : List Connection} (h : Perimeter vec v bottom top)
    {c d : Connection} (hc : c ∈ bottom) (hd : d ∈ top) (hcd : d.key = neg c.key) (kc : c.kind = .bottom) (kd : d.kind = .top) :
    ∃ p q, (positions vec (bottom ++ top) (fun _ => none) 0).1 (neg c.key) = some p ∧
      (positions vec (bottom ++ top) (fun _ => none) 0).1 c.key = some q ∧ p - q ≠ 0 ∧
      Translates vec (bottom ++ top) c (p - q) := by
  obtain ⟨l1, l2, e1⟩ := List.append_of_mem hc
  obtain ⟨m1, m2, e2⟩ := List.append_of_mem hd
  have s1 : bottom ++ top = l1 ++ c :: (l2 ++ top) := by rw [e1]; simp
  have s2 : bottom ++ top = (bottom ++ m1) ++ d :: m2 := by rw [e2]; simp
  have p1 := (positions_at (vec := vec) (s1 ▸ h.nodup)).1 kc
  have p2 := (positions_at (vec := vec) (s2 ▸ h.nodup)).2 kd
  rw [← s1] at p1
  rw [← s2, hcd] at p2
  refine ⟨_, _, p2, p1, fun hz => ?_, d, List.mem_append_right _ hd, kd, hcd, _, _, ⟨_, _, s1, rfl⟩, ⟨_, _, s2, rfl⟩, ?_, ?_⟩
  · have hp := h.polygon
    rw [e1, e2] at hp
    have hcl := hp.closed
    rw [neg_sum, ← e1, List.map_append, List.map_cons, List.sum_append, List.sum_cons] at hcl
    simp only [List.reverse_append, List.reverse_cons, List.map_append, List.map_cons, List.append_assoc, List.cons_append,
      List.nil_append, List.map_nil] at hp
    refine polygon_distinct hp (by rw [hcd, h.odd, neg_neg]) ?_
    rw [neg_sum]
    rw [List.map_append, List.sum_append, sub_eq_zero, hcl, hcd] at hz
    rw [← hz]; abel
  · rw [hcd]; abel
  · rw [h.odd]; abel

theorem translations_forall (dbg : Bool) {vec : HE → Vec T} {v : Vec T} {bottom top : List Connection}
    (h : Perimeter vec v bottom top) (hm : ∀ c ∈ bottom, c.kind = .bottom → ∃ d ∈ top, d.key = neg c.key ∧ d.kind = .top)
    {cs : List Connection} (hcs : ∀ c ∈ cs, c ∈ bottom) :
    ∃ hs, translations dbg (positions vec (bottom ++ top) (fun _ => none) 0).1 cs = .ok hs ∧
      List.Forall₂ (Translates vec (bottom ++ top)) (cs.filter fun c => c.kind = .bottom) hs := by
  induction cs with
  | nil => exact ⟨[], rfl, .nil⟩
  | cons c cs ih =>
    obtain ⟨hs, i1, i2⟩ := ih fun d hd => hcs d (by simp [hd])
    by_cases hk : c.kind = .parallel ∨ c.kind = .antiparallel
    · refine ⟨hs, by rw [translations, if_pos hk, i1], ?_⟩
      rw [List.filter_cons_of_neg]
      · exact i2
      · rcases hk with hk | hk <;> simp [hk]
    · have hb : c.kind = .bottom := by
        have := h.kindBottom c (hcs c (by simp))
        cases hq : c.kind <;> simp_all
      obtain ⟨d, hd, hd1, hd2⟩ := hm c (hcs c (by simp)) hb
      obtain ⟨p, q, e1, e2, e3, e4⟩ := translations_spec dbg h (hcs c (by simp)) hd hd1 hb hd2
      refine ⟨(p - q) :: hs, ?_, ?_⟩
      · rw [translations, if_neg hk, e1, e2]
        dsimp only
        rw [if_neg (fun hx => e3 hx.2), i1]
        rfl
      · rw [List.filter_cons_of_pos (by simp [hb])]
        exact .cons e4 i2

theorem closed {vec : HE → Vec T} {v : Vec T} {bottom top : List Connection} (h : Perimeter vec v bottom top) :
    ((bottom ++ top).map fun c => vec c.key).sum = 0 := by
  have := h.polygon.closed
  rw [neg_sum] at this
  rw [List.map_append, List.sum_append, this]; abel

theorem holonomy_spec (dbg : Bool) {vec : HE → Vec T} {v : Vec T} {bottom top : List Connection}
    (h : Perimeter vec v bottom top) (hm : ∀ c ∈ bottom, c.kind = .bottom → ∃ d ∈ top, d.key = neg c.key ∧ d.kind = .top)
    {cs : List Connection} (hcs : ∀ c ∈ cs, c ∈ bottom) :
    ∃ hs, holonomy dbg vec cs (bottom ++ top) = .ok hs ∧
      List.Forall₂ (Translates vec (bottom ++ top)) (cs.filter fun c => c.kind = .bottom) hs := by
  obtain ⟨hs, h1, h2⟩ := translations_forall dbg h hm hcs
  refine ⟨hs, ?_, h2⟩
  have hp := positions_pos vec (bottom ++ top) (fun _ => none) 0
  rw [closed h, add_zero] at hp
  unfold holonomy
  generalize positions vec (bottom ++ top) (fun _ => none) 0 = x at h1 hp
  obtain ⟨m, pos⟩ := x
  dsimp only at h1 hp ⊢
  rw [if_neg (fun hx => hx.2 hp), h1]

omit [CommRing T] [IsStrictOrderedRing T] in
theorem foldl_max (l : List T) (x : T) : x ≤ l.foldl max x ∧ (∀ y ∈ l, y ≤ l.foldl max x) ∧ (l.foldl max x = x ∨ l.foldl max x ∈ l) := by
  induction l generalizing x with
  | nil => simp
  | cons y l ih =>
    obtain ⟨h1, h2, h3⟩ := ih (max x y)
    rw [List.foldl_cons]
    refine ⟨(le_max_left _ _).trans h1, ?_, ?_⟩
    · intro z hz
      rcases List.mem_cons.1 hz with rfl | hz
      · exact (le_max_right _ _).trans h1
      · exact h2 z hz
    · rcases h3 with h3 | h3
      · rcases max_choice x y with h4 | h4
        · left; rw [h3, h4]
        · right; rw [h3, h4]; simp
      · right; simp [h3]

theorem maximum_spec {l : List T} (hl : l ≠ []) : ∃ x ∈ l, maximum l = some x ∧ ∀ y ∈ l, y ≤ x := by
  cases l with
  | nil => exact absurd rfl hl
  | cons x l =>
    obtain ⟨h1, h2, h3⟩ := foldl_max l x
    refine ⟨_, ?_, rfl, ?_⟩
    · rcases h3 with h3 | h3
      · rw [h3]; simp
      · simp [h3]
    · intro y hy
      rcases List.mem_cons.1 hy with rfl | hy
      · exact h1
      · exact h2 y hy

theorem walk_between {v p : Vec T} {ws : List (Vec T)} (h : ∀ w ∈ ws, 0 ≤ cross w v) :
    ∀ q ∈ walk p ws, cross p v ≤ cross q v ∧ cross q v ≤ cross (p + ws.sum) v := by
  induction ws generalizing p with
  | nil => intro q hq; cases hq
  | cons w ws ih =>
    have h1 := h w (by simp)
    have h2 : 0 ≤ cross ws.sum v := by
      rw [cross_sum]
      refine List.sum_nonneg fun x hx => ?_
      obtain ⟨y, hy, rfl⟩ := List.mem_map.1 hx
      exact h y (by simp [hy])
    intro q hq
    rw [List.sum_cons, ← add_assoc]
    rcases List.mem_cons.1 hq with rfl | hq
    · rw [cross_add_left _ ws.sum, cross_add_left p w]
      exact ⟨by linarith, by linarith⟩
    · obtain ⟨i1, i2⟩ := ih (fun y hy => h y (by simp [hy])) q hq
      rw [cross_add_left p w] at i1
      exact ⟨by linarith, i2⟩

theorem corners_between {v : Vec T} {bottom top : List (Vec T)} (h : MonotonePolygon v bottom top) :
    ∀ q ∈ corners bottom top, 0 ≤ cross q v ∧ cross q v ≤ cross bottom.sum v := by
  have hb := walk_between (p := 0) fun w hw => h.right w (List.mem_append_left _ hw)
  have ht := walk_between (p := 0) fun w hw => h.right w (List.mem_append_right _ hw)
  rw [zero_add] at hb ht
  have h0 : cross (0 : Vec T) v = 0 := by simp [cross]
  rw [h0] at hb ht
  intro q hq
  unfold corners at hq
  rw [List.cons_append, List.mem_cons, List.mem_append] at hq
  rcases hq with rfl | hq | hq
  · refine ⟨h0.ge, ?_⟩
    rw [h0, cross_sum]
    refine List.sum_nonneg fun x hx => ?_
    obtain ⟨y, hy, rfl⟩ := List.mem_map.1 hx
    exact h.right y (List.mem_append_left _ hy)
  · exact hb q hq
  · rw [h.closed]
    exact ht q (List.dropLast_subset _ hq)

theorem area_pos {dbg : Bool} {vec : HE → Vec T} {ks : List HE} {R : Result T} (hr : R.triangulation.tri.Reachable dbg)
    (h : Triangulates vec ks R) (hne : ks ≠ []) : 0 < R.triangulation.area2 := by
  have hF := FlatTri.IsFlat.flat hr h.flat
  obtain ⟨c, hc⟩ := List.exists_mem_of_ne_nil _ hne
  obtain ⟨e, he, -, hb, -⟩ := h.side c hc
  rw [Tri.mem_halfEdges] at he
  have hs := hF.area2_sum
  have hp : 0 < ∑ e ∈ Finset.range R.triangulation.tri.size, R.triangulation.faceArea e := by
    refine Finset.sum_pos' (fun x _ => ?_) ⟨e, Finset.mem_range.2 he, ?_⟩
    · unfold FlatTri.faceArea
      split_ifs with hx
      · exact le_refl _
      · exact (hF.oriented x hx).le
    · unfold FlatTri.faceArea
      rw [if_neg (Tri.boundary_false.1 hb)]
      exact hF.oriented e (Tri.boundary_false.1 hb)
  rw [← hs] at hp
  by_contra hn
  linarith

/-! ### Cylinders -/

theorem cross_vertical {v w w' : Vec T} (hv : v ≠ 0) (h : cross w v = 0) (h' : cross w' v = 0) : cross w w' = 0 := by
  have hd : dot v v ≠ 0 := by
    intro h0
    apply hv
    simp only [dot] at h0
    have h1 : v.x * v.x = 0 := by nlinarith [mul_self_nonneg v.x, mul_self_nonneg v.y]
    have h2 : v.y * v.y = 0 := by nlinarith [mul_self_nonneg v.x, mul_self_nonneg v.y]
    ext
    · exact mul_self_eq_zero.1 h1
    · exact mul_self_eq_zero.1 h2
  have : dot v v * cross w w' = 0 := by
    simp only [dot, cross] at *
    linear_combination (v.x * w'.x + v.y * w'.y) * h - (v.x * w.x + v.y * w.y) * h'
  exact (mul_eq_zero.1 this).resolve_left hd

theorem shoelace_vertical {v : Vec T} (hv : v ≠ 0) {l : List (Vec T)} (h : ∀ w ∈ l, cross w v = 0) (p : Vec T) :
    shoelace p l = cross p l.sum := by
  induction l generalizing p with
  | nil => simp [shoelace, cross]
  | cons w l ih =>
    have hs : cross l.sum v = 0 := by
      rw [cross_sum]
      exact List.sum_eq_zero fun x hx => by
        obtain ⟨y, hy, rfl⟩ := List.mem_map.1 hx
        exact h y (by simp [hy])
    have h1 := cross_vertical hv (h w (by simp)) hs
    rw [shoelace_cons, ih fun y hy => h y (by simp [hy]), List.sum_cons, cross_add_right, cross_add_right, cross_add_left, cross_self,
      h1]
    ring

end Verif.FlowComponent
