import Verif.Lemmas.Flat
import Verif.Spec.Vertical

/-!
# Vertical directions
-/

set_option linter.unusedSectionVars false

namespace Verif

open Spec Tri FlatTri Vec

variable {T : Type} [CommRing T] [LinearOrder T] [IsStrictOrderedRing T]
variable {K : Type*} [Field K] [LinearOrder K] [IsStrictOrderedRing K]

namespace Vertical

theorem projectPerpendicular_eq (v w : Vec T) : projectPerpendicular v w = cross w v := by
  unfold projectPerpendicular dot Vec.perpendicular cross
  simp only [neg_x, neg_y]
  ring

theorem prev_eq {S : FlatTri T} (h : S.Flat) (e : HE) : S.tri.previousInFace e = S.tri.nextInFace (S.tri.nextInFace e) := by
  unfold Tri.previousInFace Tri.nextInFace
  rw [← h.coh.hf.left (S.tri.faces.fwd (S.tri.faces.fwd e)), h.coh.tri]

theorem next3 {S : FlatTri T} (h : S.Flat) (e : HE) :
    S.tri.nextInFace (S.tri.nextInFace (S.tri.nextInFace e)) = e := h.coh.tri e

theorem SideOf.next {S : FlatTri T} (h : S.Flat) {e x : HE} : SideOf S (S.tri.nextInFace e) x ↔ SideOf S e x := by
  unfold SideOf
  rw [next3 h]
  tauto

/-- Nonzero vectors are not parallel to two sides of a triangle. -/
theorem not_both {u w v : Vec T} (h : 0 < cross u w) (hv : v ≠ 0) : ¬ (cross u v = 0 ∧ cross w v = 0) := by
  rintro ⟨h1, h2⟩
  apply hv
  unfold cross at *
  have e1 : (u.x * w.y - u.y * w.x) * v.x = 0 := by linear_combination w.x * h1 - u.x * h2
  have e2 : (u.x * w.y - u.y * w.x) * v.y = 0 := by linear_combination w.y * h1 - u.y * h2
  ext
  · exact (mul_eq_zero.1 e1).resolve_left h.ne'
  · exact (mul_eq_zero.1 e2).resolve_left h.ne'

/-- Sides of a face in terms of the flow. -/
structure Face (S : FlatTri T) (v : Vec T) (e : HE) : Prop where
  sum : cross (S.vec e) v + cross (S.vec (S.tri.nextInFace e)) v +
    cross (S.vec (S.tri.nextInFace (S.tri.nextInFace e))) v = 0
  not2 : ¬ (cross (S.vec e) v = 0 ∧ cross (S.vec (S.tri.nextInFace e)) v = 0)
  ne : S.tri.nextInFace e ≠ S.tri.nextInFace (S.tri.nextInFace e)
  /- A vertical side points up if the flow leaves through the next side. -/
  up : cross (S.vec e) v = 0 → cross (S.vec (S.tri.nextInFace e)) v < 0 → 0 < dot (S.vec e) v
  down : cross (S.vec e) v = 0 → 0 < cross (S.vec (S.tri.nextInFace e)) v → dot (S.vec e) v < 0

theorem Face.mk' {S : FlatTri T} (h : S.Flat) {v : Vec T} (hv : v ≠ 0) {e : HE} (he : S.tri.faces.fwd e ≠ e) :
    Face S v e := by
  have hc := h.closed e he
  have ho := h.oriented e he
  have key : cross (S.vec e) v = 0 → cross (S.vec e) (S.vec (S.tri.nextInFace e)) * (v.x * v.x + v.y * v.y) =
      -(dot (S.vec e) v * cross (S.vec (S.tri.nextInFace e)) v) := by
    unfold cross dot
    intro h0
    linear_combination (v.x * (S.vec (S.tri.nextInFace e)).x + v.y * (S.vec (S.tri.nextInFace e)).y) * h0
  have hv2 : 0 < v.x * v.x + v.y * v.y := by
    rcases lt_or_eq_of_le (add_nonneg (mul_self_nonneg v.x) (mul_self_nonneg v.y)) with h1 | h1
    · exact h1
    · exfalso
      apply hv
      have h2 := (add_eq_zero_iff_of_nonneg (mul_self_nonneg v.x) (mul_self_nonneg v.y)).1 h1.symm
      ext
      · exact mul_self_eq_zero.1 h2.1
      · exact mul_self_eq_zero.1 h2.2
  refine ⟨?_, not_both ho hv, ?_, fun h0 h1 => ?_, fun h0 h1 => ?_⟩
  · have := congrArg (cross · v) hc
    simp only [cross_add_left] at this
    rw [show S.tri.nextInFace e = S.tri.faces.fwd e from rfl, show S.tri.nextInFace (S.tri.faces.fwd e) =
      S.tri.faces.fwd (S.tri.faces.fwd e) from rfl, this]
    unfold cross
    simp
  · exact fun hx => h.fwd_ne he hx.symm
  · have h2 := key h0
    have h3 := mul_pos ho hv2
    unfold Tri.nextInFace at *
    rw [h2] at h3
    nlinarith
  · have h2 := key h0
    have h3 := mul_pos ho hv2
    unfold Tri.nextInFace at *
    rw [h2] at h3
    nlinarith

/-- All sides of a face. -/
theorem Face.all {S : FlatTri T} (h : S.Flat) {v : Vec T} (hv : v ≠ 0) {e : HE} (he : S.tri.faces.fwd e ≠ e) :
    Face S v e ∧ Face S v (S.tri.nextInFace e) ∧ Face S v (S.tri.nextInFace (S.tri.nextInFace e)) :=
  ⟨.mk' h hv he, .mk' h hv (h.fwd_ne he), .mk' h hv (h.fwd_ne (h.fwd_ne he))⟩

theorem faceKind_next {S : FlatTri T} (h : S.Flat) {v : Vec T} {e : HE} {t : Triangle} :
    FaceKind S v (S.tri.nextInFace e) t ↔ FaceKind S v e t := by
  cases t <;> simp only [FaceKind, SideOf.next h]

theorem faceKind_unique {S : FlatTri T} (h : S.Flat) {v : Vec T} (hv : v ≠ 0) {e : HE} (he : S.tri.faces.fwd e ≠ e)
    {t t' : Triangle} (ht : FaceKind S v e t) (ht' : FaceKind S v e t') : t = t' := by
  have n3 := next3 h e
  obtain ⟨f1, f2, f3⟩ := Face.all h hv he
  have s1 := f1.sum
  cases t <;> cases t' <;> first | rfl | (exfalso; simp only [FaceKind] at ht ht') <;>
    (obtain ⟨x, hx, h1, h2, h3⟩ := ht
     obtain ⟨y, hy, g1, g2, g3⟩ := ht'
     simp only [Enters, Leaves, PointsUp, PointsDown] at *
     rcases hx with rfl | rfl | rfl <;> rcases hy with rfl | rfl | rfl <;>
       simp only [n3] at * <;> first | linarith | (linarith [h1.1]) | (linarith [g1.1]) | linarith [h1.1, g1.1] | linarith [h1.2, g1.2])

/-- The classification when starting with a side through which the flow enters. -/
theorem classify_enters {S : FlatTri T} (h : S.Flat) (dbg : Bool) {v : Vec T} (hv : v ≠ 0) {e : HE}
    (he : S.tri.faces.fwd e ≠ e) (hp : 0 < cross (S.vec e) v) (fuel : ℕ) :
    ∃ t, classifyFace S dbg v (fuel + 1) e = some (.ok t) ∧ FaceKind S v e t := by
  obtain ⟨f1, f2, f3⟩ := Face.all h hv he
  have n3 := next3 h e
  have s := f1.sum
  have u2 := f2.up
  have d2 := f2.down
  have u3 := f3.up
  have d3 := f3.down
  unfold classifyFace
  simp only [projectPerpendicular_eq, prev_eq h]
  rw [n3] at u3 d3
  rw [if_neg f1.ne, if_neg (by rw [not_and_or]; exact .inr (not_not.2 s)), if_neg hp.ne', if_neg hp.not_gt]
  have m0 : SideOf S e e := .inl rfl
  have m1 : SideOf S e (S.tri.nextInFace e) := .inr (.inl rfl)
  have m2 : SideOf S e (S.tri.nextInFace (S.tri.nextInFace e)) := .inr (.inr rfl)
  by_cases ha : cross (S.vec (S.tri.nextInFace e)) v = 0
  · rw [if_pos ha]
    have hb : cross (S.vec (S.tri.nextInFace (S.tri.nextInFace e))) v < 0 := by rw [ha] at s; linarith
    exact ⟨_, rfl, _, m1, ⟨ha, u2 ha hb⟩, hb, by rw [n3]; exact hp⟩
  rw [if_neg ha]
  by_cases hb : cross (S.vec (S.tri.nextInFace (S.tri.nextInFace e))) v = 0
  · rw [if_pos hb]
    exact ⟨_, rfl, _, m2, ⟨hb, d3 hb hp⟩, by rw [n3]; exact hp, by
      rw [n3]; unfold Leaves; rw [hb] at s; linarith⟩
  rw [if_neg hb]
  by_cases ha' : cross (S.vec (S.tri.nextInFace e)) v > 0
  · rw [if_pos ha']
    exact ⟨_, rfl, _, m2, by unfold Leaves; linarith, by rw [n3]; exact hp, by rw [n3]; exact ha'⟩
  rw [if_neg ha']
  have ha'' : cross (S.vec (S.tri.nextInFace e)) v < 0 := lt_of_le_of_ne (not_lt.1 ha') ha
  by_cases hb' : cross (S.vec (S.tri.nextInFace (S.tri.nextInFace e))) v > 0
  · rw [if_pos hb']
    exact ⟨_, rfl, _, m1, ha'', hb', by rw [n3]; exact hp⟩
  · rw [if_neg hb']
    exact ⟨_, rfl, _, m0, hp, ha'', lt_of_le_of_ne (not_lt.1 hb') hb⟩

theorem classify_next {S : FlatTri T} (h : S.Flat) (dbg : Bool) {v : Vec T} (hv : v ≠ 0) {e : HE}
    (he : S.tri.faces.fwd e ≠ e) (hp : ¬ 0 < cross (S.vec e) v) (fuel : ℕ) :
    classifyFace S dbg v (fuel + 1) e = classifyFace S dbg v fuel (S.tri.nextInFace e) := by
  obtain ⟨f1, f2, f3⟩ := Face.all h hv he
  have n3 := next3 h e
  have s := f1.sum
  have k1 := f1.not2
  have k3 := f3.not2
  rw [n3] at k3
  rw [classifyFace]
  simp only [projectPerpendicular_eq, prev_eq h]
  rw [if_neg f1.ne, if_neg (by rw [not_and_or]; exact .inr (not_not.2 s))]
  by_cases h0 : cross (S.vec e) v = 0
  · rw [if_pos h0, if_neg]
    rw [not_and_or]
    exact .inr (not_not.2 ⟨fun hx => k1 ⟨h0, hx⟩, fun hx => k3 ⟨hx, h0⟩⟩)
  · rw [if_neg h0, if_pos (lt_of_le_of_ne (not_lt.1 hp) h0)]

theorem classify {S : FlatTri T} (h : S.Flat) (dbg : Bool) {v : Vec T} (hv : v ≠ 0) {e : HE}
    (he : S.tri.faces.fwd e ≠ e) (fuel : ℕ) : ∃ t, classifyFace S dbg v (fuel + 3) e = some (.ok t) ∧ FaceKind S v e t := by
  obtain ⟨f1, f2, f3⟩ := Face.all h hv he
  have s := f1.sum
  by_cases h0 : 0 < cross (S.vec e) v
  · exact classify_enters h dbg hv he h0 _
  rw [classify_next h dbg hv he h0]
  have he' : S.tri.faces.fwd (S.tri.nextInFace e) ≠ S.tri.nextInFace e := h.fwd_ne he
  by_cases h1 : 0 < cross (S.vec (S.tri.nextInFace e)) v
  · obtain ⟨t, t1, t2⟩ := classify_enters h dbg hv he' h1 (fuel + 1)
    exact ⟨t, t1, (faceKind_next h).1 t2⟩
  rw [classify_next h dbg hv he' h1]
  have he'' : S.tri.faces.fwd (S.tri.nextInFace (S.tri.nextInFace e)) ≠ S.tri.nextInFace (S.tri.nextInFace e) := h.fwd_ne he'
  have h2 : 0 < cross (S.vec (S.tri.nextInFace (S.tri.nextInFace e))) v := by
    have k := f1.not2
    rw [not_lt] at h0 h1
    rcases lt_or_eq_of_le h0 with h0 | h0
    · linarith
    · rcases lt_or_eq_of_le h1 with h1 | h1
      · linarith
      · exact absurd ⟨h0, h1⟩ k
  obtain ⟨t, t1, t2⟩ := classify_enters h dbg hv he'' h2 fuel
  exact ⟨t, t1, (faceKind_next h).1 ((faceKind_next h).1 t2)⟩

end Vertical

end Verif
