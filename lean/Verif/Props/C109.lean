import Verif.Lemmas.FlowComponent
import Verif.Lemmas.FlowExamples
import Verif.Props.C107

/-!
# C109: dimensions of cylinders
-/

namespace Verif.C109

open Verif Vec Vertical Spec FlowTriangulation FlowComponent Examples

variable {T : Type} [CommRing T] [LinearOrder T] [IsStrictOrderedRing T]

/-- The perimeter of a cylinder consists of a connection, vertical connections on the right, the negative of the connection, and
vertical connections on the left. -/
structure IsCylinder (vec : HE → Vec T) (v : Vec T) (x : HE) (right left : List Connection) : Prop where
  perimeter : Perimeter vec v (⟨x, .bottom⟩ :: right) (⟨neg x, .top⟩ :: left)
  right : ∀ c ∈ right, c.kind = .parallel ∧ cross (vec c.key) v = 0
  left : ∀ c ∈ left, c.kind = .antiparallel ∧ cross (vec c.key) v = 0

/-- The circumference of a cylinder is the sum of the connections on its boundary; it is in the direction of the vertical. The product
of height and width is the area. -/
theorem cylinder_correct (dbg : Bool) {vec : HE → Vec T} {v : Vec T} {x : HE} {right left : List Connection}
    (h : IsCylinder vec v x right left) :
    ∃ H y, circumferenceHolonomy dbg (some true) vec [⟨x, .bottom⟩] (⟨x, .bottom⟩ :: right ++ ⟨neg x, .top⟩ :: left) = .ok H ∧
      heightRelative dbg vec v [⟨x, .bottom⟩] (⟨x, .bottom⟩ :: right ++ ⟨neg x, .top⟩ :: left) = .ok y ∧
      H = (right.map fun c => vec c.key).sum ∧ H = -(left.map fun c => vec c.key).sum ∧
      cross H v = 0 ∧ y = dot v H ∧ 0 < y ∧
      2 * widthRelative vec v (⟨x, .bottom⟩ :: right ++ ⟨neg x, .top⟩ :: left) * y =
        FlowComponent.area2 vec (⟨x, .bottom⟩ :: right ++ ⟨neg x, .top⟩ :: left) * dot v v := by
  have hP := h.perimeter
  have hv := hP.polygon.direction
  obtain ⟨hs, h1, h2⟩ := holonomy_spec dbg hP (by
    intro c hc hk
    rcases List.mem_cons.1 hc with rfl | hc
    · exact ⟨_, List.mem_cons_self, rfl, rfl⟩
    · rw [(h.right c hc).1] at hk; cases hk) (cs := [⟨x, .bottom⟩]) (by simp)
  rw [show [(⟨x, .bottom⟩ : Connection)].filter (fun c => c.kind = .bottom) = [⟨x, .bottom⟩] from rfl] at h2
  obtain ⟨H, hs', hT, hn, rfl⟩ := List.forall₂_cons_left_iff.1 h2
  cases hn
  obtain ⟨d, -, -, hd, p, q, ⟨l1, l1', e1, rfl⟩, ⟨l2, l2', e2, rfl⟩, -, hq⟩ := hT
  have hnd := hP.nodup
  -- the positions of the two connections are unique
  have g1 : l1 = [] := by
    cases l1 with
    | nil => rfl
    | cons c l =>
      rw [List.cons_append, List.cons_append] at e1
      injection e1 with e3 e4
      rw [List.cons_append, e4, List.map_cons, List.nodup_cons] at hnd
      exact absurd (by simp) hnd.1
  subst g1
  have g2 : l2 = ⟨x, .bottom⟩ :: right := by
    have hk : ∀ (a b a' b' : List Connection) (c c' : Connection), a ++ c :: b = a' ++ c' :: b' → c.key = c'.key →
        ((a ++ c :: b).map Connection.key).Nodup → a = a' := by
      intro a
      induction a with
      | nil =>
        intro b a' b' c c' e ek en
        cases a' with
        | nil => rfl
        | cons y a' =>
          rw [List.nil_append, List.cons_append] at e
          injection e with e3 e4
          rw [List.nil_append, List.map_cons, List.nodup_cons, e4, ek] at en
          exact absurd (by simp) en.1
      | cons y a ih =>
        intro b a' b' c c' e ek en
        cases a' with
        | nil =>
          rw [List.nil_append, List.cons_append] at e
          injection e with e3 e4
          rw [List.cons_append, List.map_cons, List.nodup_cons, e3, ← ek] at en
          exact absurd (by simp) en.1
        | cons y' a' =>
          rw [List.cons_append, List.cons_append] at e
          injection e with e3 e4
          rw [List.cons_append, List.map_cons, List.nodup_cons] at en
          rw [e3, ih b a' b' c c' e4 ek en.2]
    exact (hk _ _ _ _ _ _ e2 hd.symm hnd).symm
  subst g2
  have hH : H = (right.map fun c => vec c.key).sum := by
    simp only [List.map_nil, List.sum_nil, zero_add, List.map_cons, List.sum_cons] at hq
    exact add_left_cancel hq
  have hcl := closed hP
  rw [List.map_append, List.sum_append, List.map_cons, List.sum_cons, List.map_cons, List.sum_cons] at hcl
  dsimp only at hcl
  rw [hP.odd] at hcl
  have hL : H = -(left.map fun c => vec c.key).sum := by
    rw [hH, eq_neg_iff_add_eq_zero, ← hcl]; abel
  have sum_vertical : ∀ l : List Connection, (∀ c ∈ l, cross (vec c.key) v = 0) → cross (l.map fun c => vec c.key).sum v = 0 := by
    intro l hl
    rw [cross_sum, List.map_map]
    exact List.sum_eq_zero fun z hz => by
      obtain ⟨c, hc, rfl⟩ := List.mem_map.1 hz
      exact hl c hc
  have hHv : cross H v = 0 := by
    rw [hH]; exact sum_vertical right fun c hc => (h.right c hc).2
  have hw : widthRelative vec v (⟨x, .bottom⟩ :: right ++ ⟨neg x, .top⟩ :: left) = cross (vec x) v := by
    rw [width_spec hP, List.map_cons, List.sum_cons, cross_add_left, ← hH, hHv, add_zero]
  have ha : FlowComponent.area2 vec (⟨x, .bottom⟩ :: right ++ ⟨neg x, .top⟩ :: left) = 2 * cross (vec x) H := by
    unfold FlowComponent.area2
    rw [Vec.area2_eq, List.map_append, shoelace_append, List.map_cons, shoelace_cons, shoelace_vertical hv, List.map_cons,
      shoelace_cons, shoelace_vertical hv, List.sum_cons, ← hH]
    · dsimp only
      rw [hP.odd, show (left.map fun c => vec c.key).sum = -H by rw [hL, neg_neg]]
      simp only [cross, add_x, add_y, neg_x, neg_y, zero_x, zero_y]
      ring
    · intro w hw
      obtain ⟨c, hc, rfl⟩ := List.mem_map.1 hw
      exact (h.left c hc).2
    · intro w hw
      obtain ⟨c, hc, rfl⟩ := List.mem_map.1 hw
      exact (h.right c hc).2
  have hid : 2 * cross (vec x) v * dot v H = 2 * cross (vec x) H * dot v v := by
    simp only [cross, dot] at hHv ⊢
    linear_combination 2 * ((vec x).x * v.x + (vec x).y * v.y) * hHv
  have hwp : 0 < cross (vec x) v := hP.polygon.left _ (by simp)
  have hap := (C107.area2_correct (none : Option (Approx T ℚ)) dbg hP).choose_spec.2.2
  refine ⟨H, dot v H, ?_, ?_, hH, hL, hHv, rfl, ?_, by rw [hw, ha, hid]⟩
  · unfold circumferenceHolonomy
    rw [if_neg (by decide), h1]
  · unfold heightRelative
    rw [h1]
    simp only [List.map_cons, List.map_nil, maximum, List.foldl_nil, project]
    congr 1
    simp only [dot, neg_x, neg_y]; ring
  · rw [ha] at hap
    have hvv : 0 < dot v v := by
      refine lt_of_le_of_ne ?_ fun h0 => hv ?_
      · simp only [dot]; nlinarith [mul_self_nonneg v.x, mul_self_nonneg v.y]
      · simp only [dot] at h0
        have h1 : v.x * v.x = 0 := by nlinarith [mul_self_nonneg v.x, mul_self_nonneg v.y]
        have h2 : v.y * v.y = 0 := by nlinarith [mul_self_nonneg v.x, mul_self_nonneg v.y]
        ext
        · exact mul_self_eq_zero.1 h1
        · exact mul_self_eq_zero.1 h2
    have : 0 < 2 * cross (vec x) v * dot v H := by
      rw [hid]; exact mul_pos hap hvv
    exact pos_of_mul_pos_right this (by linarith)

example : IsCylinder cylindersVec ⟨0, 1⟩ 0 [⟨2, .parallel⟩] [⟨7, .antiparallel⟩] ∧
    circumferenceHolonomy true (some true) cylindersVec [⟨0, .bottom⟩] (cylinderBottom ++ cylinderTop) = .ok ⟨0, 1⟩ ∧
    heightRelative true cylindersVec ⟨0, 1⟩ [⟨0, .bottom⟩] (cylinderBottom ++ cylinderTop) = .ok 1 :=
  ⟨⟨cylinder_perimeter, by decide, by decide⟩, by decide +kernel⟩

end Verif.C109
