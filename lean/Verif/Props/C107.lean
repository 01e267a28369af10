import Verif.Lemmas.FlowComponent
import Verif.Lemmas.FlowExamples
import Verif.Props.C106

/-!
# C107: area and width of flow components
-/

namespace Verif.C107

open Verif Vec Spec FlowTriangulation FlowComponent Examples

variable {T : Type} [CommRing T] [LinearOrder T] [IsStrictOrderedRing T]
variable {K : Type*} [Field K] [LinearOrder K] [IsStrictOrderedRing K]

/-- The area of a flow component is the area of its triangulation and positive. -/
theorem area2_correct (A : Option (Approx T K)) (dbg : Bool) {vec : HE → Vec T} {v : Vec T} {bottom top : List Connection}
    (h : Perimeter vec v bottom top) : ∃ R, make A dbg vec v (bottom ++ top) = .ok R ∧
      FlowComponent.area2 vec (bottom ++ top) = R.triangulation.area2 ∧ 0 < FlowComponent.area2 vec (bottom ++ top) := by
  obtain ⟨R, h1, h2, h3⟩ := C106.triangulation_correct A dbg h
  have ha : FlowComponent.area2 vec (bottom ++ top) = R.triangulation.area2 := by
    rw [h3.area, List.map_map]; rfl
  refine ⟨R, h1, ha, ?_⟩
  rw [ha]
  refine area_pos h2 h3 fun hn => ?_
  have := h.polygon.three
  have hl := congrArg List.length hn
  simp only [List.length_map, List.length_append, List.length_nil, List.length_reverse] at hl this
  omega

/-- The width of a flow component, multiplied with the length of the vertical, is the largest horizontal distance of its vertices. -/
theorem width_correct {vec : HE → Vec T} {v : Vec T} {bottom top : List Connection} (h : Perimeter vec v bottom top) :
    (∀ p ∈ corners (bottom.map fun c => vec c.key) (top.reverse.map fun c => -vec c.key),
      ∀ q ∈ corners (bottom.map fun c => vec c.key) (top.reverse.map fun c => -vec c.key),
        cross (q - p) v ≤ widthRelative vec v (bottom ++ top)) ∧
    (∃ p ∈ corners (bottom.map fun c => vec c.key) (top.reverse.map fun c => -vec c.key),
      ∃ q ∈ corners (bottom.map fun c => vec c.key) (top.reverse.map fun c => -vec c.key),
        cross (q - p) v = widthRelative vec v (bottom ++ top)) ∧
    0 < widthRelative vec v (bottom ++ top) := by
  rw [width_spec h]
  have hc := corners_between h.polygon
  have hbn : bottom ≠ [] := by
    rintro rfl
    have h1 := h.polygon.closed
    have h2 := h.polygon.last
    have h3 := h.polygon.three
    have ht : top ≠ [] := by rintro rfl; simp at h3
    obtain ⟨w, l, hw⟩ : ∃ w l, top.reverse.map (fun c => -vec c.key) = l ++ [w] := by
      obtain ⟨l, w, e⟩ := (List.eq_nil_or_concat' (top.reverse.map fun c => -vec c.key)).resolve_left (by simpa using ht)
      exact ⟨w, l, e⟩
    rw [hw] at h1 h2
    have h4 := h2 w (by simp)
    have h5 : 0 ≤ cross l.sum v := by
      rw [cross_sum]
      refine List.sum_nonneg fun x hx => ?_
      obtain ⟨y, hy, rfl⟩ := List.mem_map.1 hx
      refine h.polygon.right y (List.mem_append_right _ ?_)
      rw [hw]; simp [hy]
    have h6 := congrArg (fun x => cross x v) h1
    simp only [List.map_nil, List.sum_nil, List.sum_append, List.sum_singleton, cross_add_left] at h6
    have h0 : cross (0 : Vec T) v = 0 := by simp [cross]
    linarith
  obtain ⟨c, l, rfl⟩ := List.exists_cons_of_ne_nil hbn
  refine ⟨fun p hp q hq => ?_, ?_, ?_⟩
  · rw [cross_sub_left]
    have := (hc p hp).1
    have := (hc q hq).2
    linarith
  · refine ⟨0, by simp [corners], ((c :: l).map fun c => vec c.key).sum, ?_, by rw [sub_zero]⟩
    unfold corners
    obtain ⟨m, hm⟩ := walk_last (0 : Vec T) (a := (c :: l).map fun c => vec c.key) (by simp)
    rw [hm, zero_add]
    simp
  · have h1 := h.polygon.left (vec c.key) (by simp)
    have h2 : 0 ≤ cross (l.map fun c => vec c.key).sum v := by
      rw [cross_sum]
      refine List.sum_nonneg fun x hx => ?_
      obtain ⟨y, hy, rfl⟩ := List.mem_map.1 hx
      refine h.polygon.right y (List.mem_append_left _ ?_)
      rw [List.map_cons]; exact List.mem_cons_of_mem _ hy
    rw [List.map_cons, List.sum_cons, cross_add_left]
    linarith

example : Perimeter flatTorus.vec ⟨1, 3⟩ torusBottom torusTop ∧
    FlowComponent.area2 flatTorus.vec (torusBottom ++ torusTop) = 2 ∧
    widthRelative flatTorus.vec ⟨1, 3⟩ (torusBottom ++ torusTop) = 3 := ⟨torus_perimeter, by decide +kernel⟩

end Verif.C107
