import Verif.Lemmas.CollapsedCollapse
import Verif.Lemmas.CollapsedFlip
import Verif.Lemmas.VerticalCache
import Verif.Spec.Vertical

/-!
# Large edges of collapsed surfaces
-/

set_option linter.unusedSectionVars false

namespace Verif.Collapsed

open Verif Spec Vertical

variable {T : Type} [CommRing T] [LinearOrder T] [IsStrictOrderedRing T]
variable {K : Type*} [Field K] [LinearOrder K] [IsStrictOrderedRing K]
variable {C C' : Collapsed T} {e z : HE}

/-- The surface as seen by the vertical direction. -/
def seen (C : Collapsed T) : FlatTri T := ⟨C.tri, C.vec⟩

/-- The cache of horizontal lengths is right. -/
structure Exact (C : Collapsed T) (V : Vertical T) : Prop where
  vertical : V.vertical = C.vertical
  perpendicular : ∀ z < C.tri.size, ∀ x, V.perpendicular z = some x → x = Vec.cross (C.vec z) C.vertical

/-- A query returns something that satisfies `P` and keeps the cache right. -/
def Asks {α : Type} (C : Collapsed T) (m : StateM (Vertical T) α) (P : α → Prop) : Prop :=
  ∀ V, Exact C V → P (m V).1 ∧ Exact C (m V).2

theorem Asks.bind {α β : Type} {m : StateM (Vertical T) α} {P : α → Prop} {k : α → StateM (Vertical T) β} {Q : β → Prop} (h : Asks C m P)
    (hk : ∀ a, P a → Asks C (k a) Q) : Asks C (m >>= k) Q := fun V hV => hk _ (h V hV).1 _ (h V hV).2

theorem Asks.pure {α : Type} {a : α} {P : α → Prop} (h : P a) : Asks C (Pure.pure a) P := fun _ hV => ⟨h, hV⟩

namespace Good

variable (h : C.Good)

include h

theorem cross_neg (hz : z < C.tri.size) : Vec.cross (C.vec (neg z)) C.vertical = -Vec.cross (C.vec z) C.vertical :=
  h.inv.cross_neg (mem_net.2 hz) (h.closed z (mem_net.2 hz))

theorem neg_lt (hz : z < C.tri.size) : neg z < C.tri.size := (neg_lt' h.linked.even z).2 hz

theorem next_lt (hz : z < C.tri.size) : C.tri.nextInFace z < C.tri.size := mem_net.1 (h.inv.maps z (mem_net.2 hz))

theorem length_asks (hz : z < C.tri.size) : Asks C (lengthAt C.seen z) (· = horizontalLength C.seen C.vertical z) := by
  refine Asks.bind (P := (· = Vec.cross (C.vec z) C.vertical)) ?_ ?_
  · intro V hV
    unfold projectPerpendicularAt
    simp only [bind, StateT.bind, get, getThe, MonadStateOf.get, StateT.get, Pure.pure]
    cases hc : V.perpendicular z with
    | some x => exact ⟨hV.perpendicular z hz x hc, hV⟩
    | none =>
      refine ⟨by rw [← hV.vertical]; exact projectPerpendicular_eq _ _, hV.vertical, ?_⟩
      intro w hw x hx
      rcases oddSet_cases hx with ⟨rfl, h2⟩ | ⟨rfl, h2⟩ | ⟨h1, h2, h3⟩
      · injection h2 with h2
        rw [h2, projectPerpendicular_eq, hV.vertical, h.cross_neg hz]
        rfl
      · injection h2 with h2
        rw [h2, projectPerpendicular_eq, hV.vertical]
        rfl
      · exact hV.perpendicular w hw x h3
  · rintro _ rfl
    refine Asks.pure ?_
    unfold horizontalLength
    split_ifs with h1
    · exact (abs_of_pos h1).symm
    · exact (abs_of_nonpos (not_lt.1 h1)).symm

/-- The face is a triangle or consists of two half edges. -/
theorem previous_cases (hz : z < C.tri.size) : C.tri.previousInFace z = C.tri.nextInFace (C.tri.nextInFace z) ∨
    C.tri.nextInFace z = neg z ∧ C.tri.previousInFace z = neg z ∧ C.tri.nextInFace (neg z) = z := by
  rcases h.inv.face z (mem_net.2 hz) with ht | ht
  · exact .inl (h.previous ht)
  · refine .inr ⟨ht.1, ?_, ht.2.1⟩
    have h1 := h.linked.hf.left (neg z)
    rw [show C.tri.faces.fwd (neg z) = z from ht.2.1] at h1
    exact h1

theorem previous_lt (hz : z < C.tri.size) : C.tri.previousInFace z < C.tri.size := by
  rcases h.previous_cases hz with k | ⟨-, k, -⟩ <;> rw [k]
  · exact h.next_lt (h.next_lt hz)
  · exact h.neg_lt hz

theorem horizontalLength_neg (hz : z < C.tri.size) :
    horizontalLength C.seen C.vertical (neg z) = horizontalLength C.seen C.vertical z := by
  unfold horizontalLength
  rw [show C.seen.vec = C.vec from rfl, h.cross_neg hz, abs_neg]

theorem isLarge_iff (he : e < C.tri.size) : IsLarge C.seen C.vertical e ↔
    horizontalLength C.seen C.vertical (C.tri.nextInFace e) ≤ horizontalLength C.seen C.vertical e ∧
    horizontalLength C.seen C.vertical (C.tri.previousInFace e) ≤ horizontalLength C.seen C.vertical e ∧
    horizontalLength C.seen C.vertical (C.tri.nextInFace (neg e)) ≤ horizontalLength C.seen C.vertical e ∧
    horizontalLength C.seen C.vertical (C.tri.previousInFace (neg e)) ≤ horizontalLength C.seen C.vertical e := by
  have hn := h.horizontalLength_neg he
  have key : ∀ y < C.tri.size, horizontalLength C.seen C.vertical y = horizontalLength C.seen C.vertical e →
      ((∀ x, SideOf C.seen y x → horizontalLength C.seen C.vertical x ≤ horizontalLength C.seen C.vertical e) ↔
      horizontalLength C.seen C.vertical (C.tri.nextInFace y) ≤ horizontalLength C.seen C.vertical e ∧
      horizontalLength C.seen C.vertical (C.tri.previousInFace y) ≤ horizontalLength C.seen C.vertical e) := by
    intro y hy hye
    unfold SideOf
    change (∀ x, x = y ∨ x = C.tri.nextInFace y ∨ x = C.tri.nextInFace (C.tri.nextInFace y) → _) ↔ _
    rcases h.previous_cases hy with k | ⟨k1, k2, k3⟩
    · rw [k]
      constructor
      · intro hx
        exact ⟨hx _ (by tauto), hx _ (by tauto)⟩
      · rintro ⟨h1, h2⟩ x (rfl | rfl | rfl)
        · exact hye.le
        · exact h1
        · exact h2
    · rw [k2, k1, k3, h.horizontalLength_neg hy]
      constructor
      · intro _
        exact ⟨hye.le, hye.le⟩
      · rintro - x (rfl | rfl | rfl)
        · exact hye.le
        · rw [h.horizontalLength_neg hy]; exact hye.le
        · exact hye.le
  rw [← and_assoc, ← key e he rfl, ← key (neg e) (h.neg_lt he) hn]
  unfold IsLarge
  constructor
  · intro hx
    exact ⟨fun x k => hx x (.inl k), fun x k => hx x (.inr k)⟩
  · rintro ⟨h1, h2⟩ x (k | k)
    · exact h1 x k
    · exact h2 x k

theorem isLarge_neg (he : e < C.tri.size) : IsLarge C.seen C.vertical (neg e) ↔ IsLarge C.seen C.vertical e := by
  rw [h.isLarge_iff he, h.isLarge_iff (h.neg_lt he), neg_neg', h.horizontalLength_neg he]
  tauto

/-- Large edges are recognized. -/
theorem large_asks (he : e < C.tri.size) {V : Vertical T} (hV : Vertical.make C.vertical = .ok V) :
    (largeAt ⟨C.tri, C.vec⟩ e V).1 = true ↔ IsLarge C.seen C.vertical e := by
  have hn := h.neg_lt he
  unfold Vertical.make at hV
  split_ifs at hV
  injection hV with hV
  have hE : Exact C V := by
    rw [← hV]
    exact ⟨rfl, fun _ _ _ hx => by cases hx⟩
  have hl : V.large (e / 2) = none := by rw [← hV]
  clear hV
  change (largeAt C.seen e V).1 = true ↔ _
  unfold largeAt
  change ((match V.large (e / 2) with
    | some x => (Pure.pure x : StateM (Vertical T) Bool)
    | none => _) V).1 = true ↔ _
  rw [hl]
  simp only
  refine (Asks.bind (Q := fun x => x = true ↔ IsLarge C.seen C.vertical e) (h.length_asks he) ?_ V hE).1
  rintro _ rfl
  refine Asks.bind (P := fun x => x = true ↔ IsLarge C.seen C.vertical e) ?_ ?_
  · rw [h.isLarge_iff he]
    refine Asks.bind (h.length_asks (h.next_lt he)) ?_
    rintro _ rfl
    change Asks C (if (!decide (horizontalLength C.seen C.vertical e ≥ horizontalLength C.seen C.vertical (C.tri.nextInFace e))) = true then _
      else _) _
    by_cases h1 : horizontalLength C.seen C.vertical e ≥ horizontalLength C.seen C.vertical (C.tri.nextInFace e)
    swap
    · rw [if_pos (by simp [h1])]
      exact Asks.pure ⟨fun hx => (by cases hx), fun hx => absurd hx.1 h1⟩
    rw [if_neg (by simp [h1])]
    refine Asks.bind (h.length_asks (h.previous_lt he)) ?_
    rintro _ rfl
    change Asks C (if (!decide (horizontalLength C.seen C.vertical e ≥ horizontalLength C.seen C.vertical (C.tri.previousInFace e))) = true then _
      else _) _
    by_cases h2 : horizontalLength C.seen C.vertical e ≥ horizontalLength C.seen C.vertical (C.tri.previousInFace e)
    swap
    · rw [if_pos (by simp [h2])]
      exact Asks.pure ⟨fun hx => (by cases hx), fun hx => absurd hx.2.1 h2⟩
    rw [if_neg (by simp [h2])]
    refine Asks.bind (h.length_asks (h.next_lt hn)) ?_
    rintro _ rfl
    change Asks C (if (!decide (horizontalLength C.seen C.vertical e ≥ horizontalLength C.seen C.vertical (C.tri.nextInFace (neg e)))) = true
      then _ else _) _
    by_cases h3 : horizontalLength C.seen C.vertical e ≥ horizontalLength C.seen C.vertical (C.tri.nextInFace (neg e))
    swap
    · rw [if_pos (by simp [h3])]
      exact Asks.pure ⟨fun hx => (by cases hx), fun hx => absurd hx.2.2.1 h3⟩
    rw [if_neg (by simp [h3])]
    refine Asks.bind (h.length_asks (h.previous_lt hn)) ?_
    rintro _ rfl
    refine Asks.pure ?_
    rw [decide_eq_true_iff]
    exact ⟨fun hx => ⟨h1, h2, h3, hx⟩, fun hx => hx.2.2.2⟩
  · intro x hx
    exact Asks.bind (P := fun _ => True) (fun V hV => ⟨trivial, hV.vertical, hV.perpendicular⟩) fun _ _ => Asks.pure hx

end Good

end Verif.Collapsed
