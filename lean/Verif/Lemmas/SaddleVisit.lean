import Verif.Spec.SaddleSearch
import Verif.Lemmas.WalkerSurface
import Verif.Props.C26

set_option linter.unusedSectionVars false

/-!
# The search for saddle connections across one edge
-/

namespace Verif

open Vec Spec FlatTri

variable {T : Type} [CommRing T] [LinearOrder T] [IsStrictOrderedRing T]

namespace Vec

/-- Vectors in a half plane are ordered by their direction. -/
theorem cross_trans_eq (u v w n : Vec T) : cross u w * cross v n = cross u v * cross w n + cross v w * cross u n := by
  simp only [cross]; ring

variable {u v w n : Vec T}

theorem cross_trans (hu : 0 < cross u n) (hv : 0 < cross v n) (hw : 0 < cross w n) (h : 0 ≤ cross u v) (h' : 0 ≤ cross v w) :
    0 ≤ cross u w := by
  have := cross_trans_eq u v w n
  have h1 : 0 ≤ cross u w * cross v n := by rw [this]; positivity
  exact nonneg_of_mul_nonneg_left h1 hv

theorem cross_trans_lt_le (hu : 0 < cross u n) (hv : 0 < cross v n) (hw : 0 < cross w n) (h : 0 < cross u v) (h' : 0 ≤ cross v w) :
    0 < cross u w := by
  have := cross_trans_eq u v w n
  have h1 : 0 < cross u w * cross v n := by rw [this]; positivity
  exact (mul_pos_iff_of_pos_right hv).1 h1

theorem cross_trans_le_lt (hu : 0 < cross u n) (hv : 0 < cross v n) (hw : 0 < cross w n) (h : 0 ≤ cross u v) (h' : 0 < cross v w) :
    0 < cross u w := by
  have := cross_trans_eq u v w n
  have h1 : 0 < cross u w * cross v n := by rw [this]; positivity
  exact (mul_pos_iff_of_pos_right hv).1 h1

/-- Vectors in a half plane that are collinear have the same direction. -/
theorem dot_pos_of_half (hu : 0 < cross u n) (hv : 0 < cross v n) (h : cross u v = 0) : 0 < dot u v := by
  have h1 : dot u v * cross u n = dot u u * cross v n := by
    have : dot u v * cross u n - dot u u * cross v n = cross u v * dot u n := by simp only [cross, dot]; ring
    rw [h] at this
    linear_combination this
  have h2 : 0 < dot u u := dot_self_pos (by rintro rfl; simp at hu)
  have h3 : 0 < dot u v * cross u n := by rw [h1]; positivity
  exact (mul_pos_iff_of_pos_right hu).1 h3

end Vec

namespace SaddleSearch

/-- The boundary of a search sector: whether it is not included in the sector and its vector. -/
abbrev Bd (T : Type) := Bool × Vec T

/-- The vector is in the search sector. -/
def InS (b0 b1 : Bd T) (v : Vec T) : Prop :=
  (b0.1 = false ∧ cross b0.2 v = 0 ∧ 0 < dot b0.2 v) ∨ (0 < cross b0.2 v ∧ 0 < cross v b1.2)

/-- There is nothing in the search sector. -/
def Void (b0 b1 : Bd T) : Prop := b0.1 = true ∧ ∀ z, 0 < cross b0.2 z → 0 ≤ cross b1.2 z

theorem Void.not_inS {b0 b1 : Bd T} (h : Void b0 b1) (v : Vec T) : ¬InS b0 b1 v := by
  rintro (k | k)
  · rw [h.1] at k; exact absurd k.1 (by decide)
  · have := h.2 v k.1
    rw [cross_comm] at this
    linarith [k.2]

/-- The search sector is not empty, and it is inside the cone of rays that cross an edge. -/
structure Node (S : FlatTri T) (b0 b1 : Bd T) (x : HE) (q : Vec T) : Prop where
  lt : x < S.tri.size
  pos : 0 < cross (q - S.vec x) q
  p0 : 0 ≤ cross (q - S.vec x) b0.2
  p0' : b0.1 = false → 0 < cross (q - S.vec x) b0.2
  q0 : 0 < cross b0.2 q
  p1 : 0 < cross (q - S.vec x) b1.2
  q1 : 0 ≤ cross b1.2 q
  b : 0 < cross b0.2 b1.2 ∨ b0.1 = false ∧ cross b0.2 b1.2 = 0

section geometry

variable {S : FlatTri T} {x : HE} {q : Vec T}

/-- The half edges in the face on the other side. -/
theorem apex_spec (h : S.Shut) (hx : x < S.tri.size) :
    S.tri.nextInFace (neg x) < S.tri.size ∧ S.tri.nextInFace (S.tri.nextInFace (neg x)) < S.tri.size ∧
    apex S x q - S.vec (S.tri.nextInFace (neg x)) = q - S.vec x ∧
    q - S.vec (S.tri.nextInFace (S.tri.nextInFace (neg x))) = apex S x q ∧
    0 < cross (apex S x q) (S.vec x) - cross (q - S.vec x) q := by
  have hn := neg_lt_of_even h.even hx
  refine ⟨h.faces_lt hn, h.faces_lt (h.faces_lt hn), by unfold apex; abel, ?_, ?_⟩
  · have h1 := h.flat.closed (neg x) (h.nb _ hn)
    rw [h.flat.odd x hx] at h1
    have h2 : S.vec (S.tri.nextInFace (S.tri.nextInFace (neg x))) = S.vec x - S.vec (S.tri.nextInFace (neg x)) := by
      unfold Tri.nextInFace
      rw [← sub_eq_zero, ← h1]
      abel
    rw [h2]
    unfold apex
    abel
  · have h1 := h.flat.oriented (neg x) (h.nb _ hn)
    rw [h.flat.odd x hx] at h1
    have : cross (apex S x q) (S.vec x) - cross (q - S.vec x) q = cross (-S.vec x) (S.vec (S.tri.faces.fwd (neg x))) := by
      unfold apex Tri.nextInFace
      simp only [cross, Vec.add_x, Vec.add_y, Vec.sub_x, Vec.sub_y, Vec.neg_x, Vec.neg_y]
      ring
    rw [this]
    exact h1

theorem half_p : cross (q - S.vec x) (S.vec x) = cross (q - S.vec x) q := by
  simp only [cross, Vec.sub_x, Vec.sub_y]; ring

theorem half_q : cross q (S.vec x) = cross (q - S.vec x) q := by
  simp only [cross, Vec.sub_x, Vec.sub_y]; ring

theorem half_eq (z : Vec T) : cross z (S.vec x) = cross (q - S.vec x) z + cross z q := by
  simp only [cross, Vec.sub_x, Vec.sub_y]; ring

theorem Node.half0 {b0 b1 : Bd T} (h : Node S b0 b1 x q) : 0 < cross b0.2 (S.vec x) := by
  rw [half_eq (q := q)]; linarith [h.p0, h.q0]

theorem Node.half1 {b0 b1 : Bd T} (h : Node S b0 b1 x q) : 0 < cross b1.2 (S.vec x) := by
  rw [half_eq (q := q)]; linarith [h.p1, h.q1]

/-- Vectors in the search sector are in the cone of rays that cross an edge. -/
theorem Node.inS {b0 b1 : Bd T} (h : Node S b0 b1 x q) {v : Vec T} (hv : InS b0 b1 v) :
    0 < cross v (S.vec x) ∧ 0 < cross (q - S.vec x) v ∧ 0 < cross v q := by
  have h0 := h.half0
  have h1 := h.half1
  rcases hv with ⟨k1, k2, k3⟩ | ⟨k1, k2⟩
  · have hb : 0 < dot b0.2 b0.2 := dot_self_pos (by intro hz; rw [hz] at h0; simp at h0)
    have e1 : ∀ z, dot b0.2 b0.2 * cross v z = dot b0.2 v * cross b0.2 z := by
      intro z
      have : dot b0.2 b0.2 * cross v z - dot b0.2 v * cross b0.2 z = -(cross b0.2 v * dot b0.2 z) := by
        simp only [cross, dot]; ring
      rw [k2] at this
      linear_combination this
    have e2 : ∀ z, 0 < cross b0.2 z → 0 < cross v z := by
      intro z hz
      have : 0 < dot b0.2 b0.2 * cross v z := by rw [e1]; positivity
      exact (mul_pos_iff_of_pos_left hb).1 this
    refine ⟨e2 _ h0, ?_, e2 _ h.q0⟩
    have := e2 (-(q - S.vec x)) (by rw [cross_neg_right, ← cross_comm]; exact h.p0' k1)
    rw [cross_neg_right, ← cross_comm] at this
    exact this
  · have hb : 0 < cross b0.2 b1.2 := by
      rcases h.b with hb | ⟨-, hb⟩
      · exact hb
      · exfalso
        have hd := dot_pos_of_half h0 h1 hb
        have e1 : dot b0.2 b0.2 * cross b1.2 v = dot b0.2 b1.2 * cross b0.2 v := by
          have : dot b0.2 b0.2 * cross b1.2 v - dot b0.2 b1.2 * cross b0.2 v = -(cross b0.2 b1.2 * dot b0.2 v) := by
            simp only [cross, dot]; ring
          rw [hb] at this
          linear_combination this
        have : 0 < dot b0.2 b0.2 * cross b1.2 v := by rw [e1]; positivity
        have := (mul_pos_iff_of_pos_left (dot_self_pos (by intro hz; rw [hz] at h0; simp at h0))).1 this
        rw [cross_comm] at this
        linarith
    have h2 : 0 < cross v (S.vec x) := by
      have : cross b0.2 b1.2 * cross v (S.vec x) = cross v b1.2 * cross b0.2 (S.vec x) + cross b0.2 v * cross b1.2 (S.vec x) := by
        simp only [cross]; ring
      have : 0 < cross b0.2 b1.2 * cross v (S.vec x) := by rw [this]; positivity
      exact (mul_pos_iff_of_pos_left hb).1 this
    refine ⟨h2, ?_, ?_⟩
    · exact cross_trans_le_lt (by rw [half_p]; exact h.pos) h0 h2 h.p0 k1
    · exact cross_trans_lt_le h2 h1 (by rw [half_q (q := q)]; exact h.pos) k2 h.q1

/-- A vertex that is hit is beyond the edge. -/
theorem beyond (h : S.Shut) {v : Vec T} {t : HE} (ht : Hits S v x q t) (hx : x < S.tri.size) (hp : 0 < cross (q - S.vec x) q)
    (h1 : 0 < cross (q - S.vec x) v) (h2 : 0 < cross v q) : cross (q - S.vec x) q ≤ cross v (S.vec x) := by
  induction ht with
  | @here x q hv =>
    obtain ⟨-, -, -, -, ha⟩ := apex_spec (q := q) h hx
    rw [hv]
    linarith
  | @right x q t hv _ ih =>
    obtain ⟨hl, -, hq, -, ha⟩ := apex_spec (q := q) h hx
    have hh : 0 < cross v (S.vec x) := by rw [half_eq (q := q)]; linarith
    have hpa : 0 < cross (q - S.vec x) (apex S x q) :=
      cross_trans_lt_le (n := S.vec x) (by rw [half_p]; exact hp) hh (by linarith) h1 hv.le
    rw [hq] at ih
    have h3 := ih hl hpa h1 hv
    have e : cross (q - S.vec x) (apex S x q) * cross v (S.vec x) =
        cross v (apex S x q) * cross (q - S.vec x) q + cross (q - S.vec x) v * cross (apex S x q) (S.vec x) := by
      simp only [cross, Vec.sub_x, Vec.sub_y]; ring
    have e' : cross v (S.vec (S.tri.nextInFace (neg x))) = cross v (apex S x q) + cross (q - S.vec x) v := by
      unfold apex
      simp only [cross, Vec.sub_x, Vec.sub_y, Vec.add_x, Vec.add_y]; ring
    rw [e'] at h3
    have : cross (q - S.vec x) (apex S x q) * cross (q - S.vec x) q ≤
        cross (q - S.vec x) (apex S x q) * cross v (S.vec x) := by
      rw [e]
      nlinarith
    exact le_of_mul_le_mul_left this hpa
  | @left x q t hv _ ih =>
    obtain ⟨-, hl, -, hq, ha⟩ := apex_spec (q := q) h hx
    have hv' : 0 < cross (apex S x q) v := by rw [cross_comm]; linarith
    have hh : 0 < cross v (S.vec x) := by rw [half_eq (q := q)]; linarith
    have hpa : 0 < cross (apex S x q) q :=
      cross_trans_lt_le (n := S.vec x) (by linarith) hh (by rw [half_q (q := q)]; exact hp) hv' h2.le
    rw [hq] at ih
    have h3 := ih hl hpa hv' h2
    have e : cross (apex S x q) q * cross v (S.vec x) =
        cross v q * cross (apex S x q) (S.vec x) + cross (apex S x q) v * cross (q - S.vec x) q := by
      simp only [cross, Vec.sub_x, Vec.sub_y]; ring
    have hy : S.vec (S.tri.nextInFace (S.tri.nextInFace (neg x))) = q - apex S x q := by rw [← hq]; abel
    have e' : cross v (S.vec (S.tri.nextInFace (S.tri.nextInFace (neg x)))) = cross v q + cross (apex S x q) v := by
      rw [hy]
      simp only [cross, Vec.sub_x, Vec.sub_y]; ring
    rw [e'] at h3
    have : cross (apex S x q) q * cross (q - S.vec x) q ≤ cross (apex S x q) q * cross v (S.vec x) := by
      rw [e]
      nlinarith
    exact le_of_mul_le_mul_left this hpa

theorem hits_right {v : Vec T} {t : HE} (hv : 0 < cross v (apex S x q)) :
    Hits S v x q t ↔ Hits S v (S.tri.nextInFace (neg x)) (apex S x q) t := by
  constructor
  · intro h
    cases h with
    | here h => rw [← h, cross_self] at hv; exact absurd hv (lt_irrefl _)
    | right _ h => exact h
    | left h _ => exact absurd hv (not_lt.2 h.le)
  · exact fun h => .right hv h

theorem hits_left {v : Vec T} {t : HE} (hv : cross v (apex S x q) < 0) :
    Hits S v x q t ↔ Hits S v (S.tri.nextInFace (S.tri.nextInFace (neg x))) q t := by
  constructor
  · intro h
    cases h with
    | here h => rw [← h, cross_self] at hv; exact absurd hv (lt_irrefl _)
    | right h _ => exact absurd hv (not_lt.2 h.le)
    | left _ h => exact h
  · exact fun h => .left hv h

theorem hits_here {v : Vec T} {t : HE} (hv : cross v (apex S x q) = 0) :
    Hits S v x q t ↔ v = apex S x q ∧ t = S.tri.nextInFace (S.tri.nextInFace (neg x)) := by
  constructor
  · intro h
    cases h with
    | here h => exact ⟨h, rfl⟩
    | right h _ => exact absurd hv h.ne'
    | left h _ => exact absurd hv h.ne
  · rintro ⟨h, rfl⟩
    exact .here h

variable {b0 b1 : Bd T}

theorem Node.halfa (h : S.Shut) (hn : Node S b0 b1 x q) : 0 < cross (apex S x q) (S.vec x) := by
  obtain ⟨-, -, -, -, ha⟩ := apex_spec (q := q) h hn.lt
  linarith [hn.pos]

/-- Whether a vertex is outside the search sector on the clockwise side. -/
def Cw (b0 : Bd T) (a : Vec T) : Prop := cross b0.2 a < 0 ∨ cross b0.2 a = 0 ∧ b0.1 = true

theorem Node.clockwise (h : S.Shut) (hn : Node S b0 b1 x q) (hc : Cw b0 (apex S x q)) :
    Node S b0 b1 (S.tri.nextInFace (S.tri.nextInFace (neg x))) q := by
  obtain ⟨-, hl, -, hq, -⟩ := apex_spec (q := q) h hn.lt
  have ha := hn.halfa h
  have h1 : 0 ≤ cross (apex S x q) b0.2 := by
    rw [cross_comm]
    rcases hc with hc | hc <;> linarith
  have hq' : 0 < cross q (S.vec x) := by rw [half_q]; exact hn.pos
  refine ⟨hl, ?_, ?_, ?_, hn.q0, ?_, hn.q1, hn.b⟩
  all_goals rw [hq]
  · exact cross_trans_le_lt ha hn.half0 hq' h1 hn.q0
  · exact h1
  · intro hb
    rcases hc with hc | hc
    · rw [cross_comm]; linarith
    · rw [hc.2] at hb; exact absurd hb (by decide)
  · rcases hn.b with hb | hb
    · exact cross_trans_le_lt ha hn.half0 hn.half1 h1 hb
    · refine cross_trans_lt_le ha hn.half0 hn.half1 ?_ hb.2.ge
      rcases hc with hc | hc
      · rw [cross_comm]; linarith
      · rw [hc.2] at hb; exact absurd hb.1 (by decide)

theorem Node.counterclockwise (h : S.Shut) (hn : Node S b0 b1 x q) (h0 : 0 < cross b0.2 (apex S x q))
    (h1 : 0 ≤ cross b1.2 (apex S x q)) : Node S b0 b1 (S.tri.nextInFace (neg x)) (apex S x q) := by
  obtain ⟨hl, -, hq, -, -⟩ := apex_spec (q := q) h hn.lt
  have ha := hn.halfa h
  have hp' : 0 < cross (q - S.vec x) (S.vec x) := by rw [half_p]; exact hn.pos
  refine ⟨hl, ?_, ?_, ?_, h0, ?_, h1, hn.b⟩
  all_goals rw [hq]
  · exact cross_trans_le_lt hp' hn.half0 ha hn.p0 h0
  · exact hn.p0
  · exact hn.p0'
  · exact hn.p1

theorem Node.first (h : S.Shut) (hn : Node S b0 b1 x q) (h0 : 0 < cross b0.2 (apex S x q)) :
    Node S b0 (true, apex S x q) (S.tri.nextInFace (neg x)) (apex S x q) := by
  obtain ⟨hl, -, hq, -, -⟩ := apex_spec (q := q) h hn.lt
  have ha := hn.halfa h
  have hp' : 0 < cross (q - S.vec x) (S.vec x) := by rw [half_p]; exact hn.pos
  have hpa := cross_trans_le_lt hp' hn.half0 ha hn.p0 h0
  refine ⟨hl, ?_, ?_, ?_, h0, ?_, (cross_self _).ge, Or.inl h0⟩
  all_goals rw [hq]
  · exact hpa
  · exact hn.p0
  · exact hn.p0'
  · exact hpa

theorem Node.second (h : S.Shut) (hn : Node S b0 b1 x q) (h1 : 0 < cross (apex S x q) b1.2) :
    Node S (true, apex S x q) b1 (S.tri.nextInFace (S.tri.nextInFace (neg x))) q := by
  obtain ⟨-, hl, -, hq, -⟩ := apex_spec (q := q) h hn.lt
  have ha := hn.halfa h
  have hq' : 0 < cross q (S.vec x) := by rw [half_q]; exact hn.pos
  have haq := cross_trans_lt_le ha hn.half1 hq' h1 hn.q1
  refine ⟨hl, ?_, ?_, ?_, haq, ?_, hn.q1, Or.inl h1⟩
  all_goals rw [hq]
  · exact haq
  · exact (cross_self _).ge
  · simp
  · exact h1

end geometry

end SaddleSearch

end Verif
