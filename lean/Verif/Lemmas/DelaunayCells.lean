import Verif.Lemmas.FindIsomorphism
import Verif.Lemmas.SaddleVisit
import Verif.Lemmas.SaddleMoves
import Verif.Lemmas.Delaunay

/-!
# Delaunay cells are convex and connected
-/

set_option linter.unusedSectionVars false

namespace Verif

open Spec Tri Vec

variable {T : Type} [CommRing T] [LinearOrder T] [IsStrictOrderedRing T]

section fan

/-- This vanishes if the points `p`, `e`, `n` are on a circle through zero. -/
def onCircle (p e n : Vec T) : T := dot p p * cross e n + dot e e * cross n p + dot n n * cross p e

theorem fan_circle {q : ℕ → Vec T} {k : ℕ} (h1 : ∀ i ≤ k, 0 < cross (q (i + 1)) (q i))
    (h2 : ∀ i < k, onCircle (q (i + 2)) (q (i + 1)) (q i) = 0) : ∀ i ≤ k,
    (cross (dot (q 0) (q 0) • q 1 - dot (q 1) (q 1) • q 0) (q i) = dot (q i) (q i) * cross (q 1) (q 0)) ∧
    (cross (dot (q 0) (q 0) • q 1 - dot (q 1) (q 1) • q 0) (q (i + 1)) = dot (q (i + 1)) (q (i + 1)) * cross (q 1) (q 0)) := by
  intro i
  induction i with
  | zero =>
    intro _
    constructor <;> simp only [cross, dot, sub_x, sub_y, smul_x, smul_y] <;> ring
  | succ i ih =>
    intro hi
    obtain ⟨e1, e2⟩ := ih (by omega)
    refine ⟨e2, ?_⟩
    have hpos := h1 i (by omega)
    have hc := h2 i (by omega)
    refine mul_left_cancel₀ hpos.ne' ?_
    generalize dot (q 0) (q 0) • q 1 - dot (q 1) (q 1) • q 0 = m at *
    have key : cross (q (i + 1)) (q i) * cross m (q (i + 1 + 1)) = cross (q (i + 1 + 1)) (q i) * cross m (q (i + 1)) -
        cross (q (i + 1 + 1)) (q (i + 1)) * cross m (q i) := by
      simp only [cross]
      ring
    rw [key, e1, e2]
    unfold onCircle at hc
    have : cross (q (i + 1)) (q i) * dot (q (i + 2)) (q (i + 2)) = cross (q (i + 2)) (q i) * dot (q (i + 1)) (q (i + 1)) -
        cross (q (i + 2)) (q (i + 1)) * dot (q i) (q i) := by
      have f : cross (q i) (q (i + 2)) = -cross (q (i + 2)) (q i) := by simp only [cross]; ring
      rw [f] at hc
      linear_combination hc
    linear_combination (-cross (q 1) (q 0)) * this

/-- Turning inside of a cell, one does not reach a half turn. -/
theorem fan_cross {q : ℕ → Vec T} {k : ℕ} (h1 : ∀ i ≤ k, 0 < cross (q (i + 1)) (q i))
    (h2 : ∀ i < k, onCircle (q (i + 2)) (q (i + 1)) (q i) = 0) : 0 < cross (q (k + 1)) (q 0) := by
  have hp : ∀ i ≤ k + 1, 0 < cross (q i) (-(dot (q 0) (q 0) • q 1 - dot (q 1) (q 1) • q 0)) := by
    intro i hi
    have hne : q i ≠ 0 := by
      intro e
      by_cases hk : i ≤ k
      · have := h1 i hk
        rw [e] at this
        simp [cross] at this
      · have := h1 k le_rfl
        rw [show k + 1 = i by omega, e] at this
        simp [cross] at this
    have e : cross (dot (q 0) (q 0) • q 1 - dot (q 1) (q 1) • q 0) (q i) = dot (q i) (q i) * cross (q 1) (q 0) := by
      by_cases hk : i ≤ k
      · exact (fan_circle h1 h2 i hk).1
      · have := (fan_circle h1 h2 k le_rfl).2
        rwa [show k + 1 = i by omega] at this
    have e' : cross (q i) (-(dot (q 0) (q 0) • q 1 - dot (q 1) (q 1) • q 0)) =
        cross (dot (q 0) (q 0) • q 1 - dot (q 1) (q 1) • q 0) (q i) := by
      simp only [cross, neg_x, neg_y]
      ring
    rw [e', e]
    exact mul_pos (dot_self_pos hne) (h1 0 (Nat.zero_le _))
  have : ∀ i ≤ k, 0 < cross (q (i + 1)) (q 0) := by
    intro i
    induction i with
    | zero => exact fun h => h1 0 h
    | succ i ih =>
      intro hi
      exact cross_trans_lt_le (hp _ (by omega)) (hp _ (by omega)) (hp 0 (by omega)) (h1 (i + 1) hi) (ih (by omega)).le
  exact this k le_rfl

/-- Sectors can be split. -/
theorem sector_split {a b c u : Vec T} (hab : 0 < cross a b) (hbc : 0 < cross b c) (hac : 0 < cross a c) :
    (0 ≤ cross a u ∧ 0 < cross u c) ↔ (0 ≤ cross a u ∧ 0 < cross u b) ∨ (0 ≤ cross b u ∧ 0 < cross u c) := by
  have e : cross a c * cross b u = cross b c * cross a u - cross a b * cross u c := by
    simp only [cross]; ring
  have eb : cross u b = -cross b u := by simp only [cross]; ring
  constructor
  · rintro ⟨h1, h2⟩
    by_cases hb : 0 ≤ cross b u
    · exact .inr ⟨hb, h2⟩
    · exact .inl ⟨h1, by rw [eb]; linarith [not_le.1 hb]⟩
  · rintro (⟨h1, h2⟩ | ⟨h1, h2⟩)
    · refine ⟨h1, ?_⟩
      have h3 : cross a c * cross b u < 0 := mul_neg_of_pos_of_neg hac (by linarith)
      have h4 : 0 ≤ cross b c * cross a u := mul_nonneg hbc.le h1
      exact (mul_pos_iff_of_pos_left hab).1 (by linarith)
    · refine ⟨?_, h2⟩
      have h3 : 0 ≤ cross a c * cross b u := mul_nonneg hac.le h1
      have h4 : 0 < cross a b * cross u c := mul_pos hab h2
      exact ((mul_pos_iff_of_pos_left hbc).1 (by linarith)).le

/-- The sector of a fan is the disjoint union of its parts. -/
theorem fan_sector {q : ℕ → Vec T} {k : ℕ} (h1 : ∀ i ≤ k, 0 < cross (q (i + 1)) (q i))
    (h2 : ∀ i < k, onCircle (q (i + 2)) (q (i + 1)) (q i) = 0) (u : Vec T) :
    ((0 ≤ cross (q (k + 1)) u ∧ 0 < cross u (q 0)) ↔ ∃ i ≤ k, 0 ≤ cross (q (i + 1)) u ∧ 0 < cross u (q i)) ∧
    ∀ i ≤ k, ∀ j ≤ k, (0 ≤ cross (q (i + 1)) u ∧ 0 < cross u (q i)) → (0 ≤ cross (q (j + 1)) u ∧ 0 < cross u (q j)) → i = j := by
  induction k with
  | zero =>
    refine ⟨⟨fun h => ⟨0, le_rfl, h⟩, ?_⟩, fun i hi j hj _ _ => by omega⟩
    rintro ⟨i, hi, h⟩
    obtain rfl : i = 0 := by omega
    exact h
  | succ k ih =>
    obtain ⟨e1, e2⟩ := ih (fun i hi => h1 i (by omega)) (fun i hi => h2 i (by omega))
    have hs := sector_split (u := u) (h1 (k + 1) le_rfl) (fan_cross (fun i hi => h1 i (Nat.le_succ_of_le hi)) (fun i hi => h2 i (by omega)))
      (fan_cross h1 h2)
    have hno : ∀ i ≤ k, (0 ≤ cross (q (i + 1)) u ∧ 0 < cross u (q i)) → ¬ (0 ≤ cross (q (k + 1 + 1)) u ∧ 0 < cross u (q (k + 1))) := by
      intro i hi h h'
      have := (e1.2 ⟨i, hi, h⟩).1
      have e : cross u (q (k + 1)) = -cross (q (k + 1)) u := by simp only [cross]; ring
      rw [e] at h'
      linarith [h'.2]
    constructor
    · rw [hs, e1]
      constructor
      · rintro (h | ⟨i, hi, h⟩)
        · exact ⟨k + 1, le_rfl, h⟩
        · exact ⟨i, by omega, h⟩
      · rintro ⟨i, hi, h⟩
        rcases Nat.lt_or_ge k i with hk | hk
        · obtain rfl : i = k + 1 := by omega
          exact .inl h
        · exact .inr ⟨i, hk, h⟩
    · intro i hi j hj hi' hj'
      rcases Nat.lt_or_ge k i with hk | hk <;> rcases Nat.lt_or_ge k j with hk' | hk'
      · omega
      · obtain rfl : i = k + 1 := by omega
        exact absurd hi' (hno j hk' hj')
      · obtain rfl : j = k + 1 := by omega
        exact absurd hj' (hno i hk hi')
      · exact e2 i hk j hk' hi' hj'

end fan

namespace FlatTri

variable {S : FlatTri T}

theorem previous_eq (h : S.Shut) {x : HE} (hx : x < S.tri.size) : S.tri.previousAtVertex (Verif.neg x) = S.tri.nextInFace x := by
  have e : S.tri.nextAtVertex (S.tri.nextInFace x) = Verif.neg x := (h.quad hx).va
  rw [← e]
  exact h.flat.coh.hv.left _

theorem inner_iff (h : S.Shut) {e : HE} (he : e < S.tri.size) : Inner S .delaunayCells e ↔
    incircle (S.vec (S.tri.faces.fwd e)) (S.vec (S.tri.faces.fwd (S.tri.faces.fwd e))) (S.vec (S.tri.faces.fwd (Verif.neg e)))
      (S.vec (S.tri.faces.fwd (S.tri.faces.fwd (Verif.neg e)))) = 0 := by
  have hval : ∀ {e a b c d}, S.tri.Quad e a b c d → (S.delaunayAt e = .ambiguous ↔ incircle (S.vec a) (S.vec b) (S.vec c) (S.vec d) = 0) := by
    intro e a b c d q
    rw [h.flat.delaunayAt_eq q]
    split_ifs with h1 h2
    · simp [h1.ne]
    · simp [h2]
    · simp [h2]
  unfold Inner
  simp only [true_and]
  rcases Nat.mod_two_eq_zero_or_one e with hm | hm
  · rw [show 2 * (e / 2) = e by omega]
    exact hval (h.quad he)
  · have hn : Verif.neg e = 2 * (e / 2) := by
      have h1 := neg_div e
      have h2 := neg_mod e
      omega
    rw [← hn, hval (h.quad (h.neg_lt he)), neg_neg', incircle_symm]

/-- The three half edges at a vertex next to an edge in a cell. -/
theorem onCircle_of_inner (h : S.Shut) {e : HE} (he : e < S.tri.size) (hi : Inner S .delaunayCells e) :
    onCircle (S.vec (S.tri.previousAtVertex e)) (S.vec e) (S.vec (S.tri.nextAtVertex e)) = 0 := by
  rw [inner_iff h he] at hi
  have q := h.quad he
  have e1 : S.tri.previousAtVertex e = S.tri.faces.fwd (Verif.neg e) := by
    have := previous_eq h (h.neg_lt he)
    rwa [neg_neg'] at this
  have e2 : S.tri.nextAtVertex e = Verif.neg (S.tri.faces.fwd (S.tri.faces.fwd e)) := q.ve
  obtain ⟨g1, g2, g3, g4, g5, g6, g7, g8, g9⟩ := h.flat.quad q
  obtain ⟨f1, f2⟩ := perimeter g6 g7
  rw [e1, e2, h.flat.odd _ q.lt.2.2.1, f1]
  rw [f2] at hi
  unfold incircle at hi
  unfold onCircle
  simp only [cross, dot, sub_x, sub_y, neg_x, neg_y] at hi ⊢
  linear_combination -hi

/-- Half edges at a vertex that are next to each other. -/
theorem cross_previous (h : S.Shut) {e : HE} (he : e < S.tri.size) : 0 < cross (S.vec (S.tri.previousAtVertex e)) (S.vec e) := by
  have hn := h.neg_lt he
  have e1 : S.tri.previousAtVertex e = S.tri.faces.fwd (Verif.neg e) := by
    have := previous_eq h hn
    rwa [neg_neg'] at this
  have := h.flat.oriented _ (h.nb _ hn)
  rw [h.flat.odd e he, cross_neg_left] at this
  rw [e1]
  refine lt_of_lt_of_eq this ?_
  simp only [cross]
  ring

theorem previous_lt (h : S.Shut) {e : HE} (he : e < S.tri.size) (n : ℕ) : S.tri.previousAtVertex^[n] e < S.tri.size := by
  induction n with
  | zero => exact he
  | succ n ih =>
    rw [Function.iterate_succ_apply']
    exact h.around_lt false ih

/-- The vectors of half edges when turning clockwise. -/
theorem fan_of_surface (h : S.Shut) {e : HE} (he : e < S.tri.size) {k : ℕ}
    (hi : ∀ i < k, Inner S .delaunayCells (S.tri.previousAtVertex^[i + 1] e)) :
    (∀ i ≤ k, 0 < cross (S.vec (S.tri.previousAtVertex^[i + 1] e)) (S.vec (S.tri.previousAtVertex^[i] e))) ∧
    ∀ i < k, onCircle (S.vec (S.tri.previousAtVertex^[i + 2] e)) (S.vec (S.tri.previousAtVertex^[i + 1] e))
      (S.vec (S.tri.previousAtVertex^[i] e)) = 0 := by
  constructor
  · intro i _
    rw [Function.iterate_succ_apply']
    exact cross_previous h (previous_lt h he i)
  · intro i hik
    have := onCircle_of_inner h (previous_lt h he (i + 1)) (hi i hik)
    rw [← Function.iterate_succ_apply' S.tri.previousAtVertex (i + 1) e] at this
    rwa [show S.tri.nextAtVertex (S.tri.previousAtVertex^[i + 1] e) = S.tri.previousAtVertex^[i] e by
      rw [Function.iterate_succ_apply']
      exact h.flat.coh.hv.right _] at this

theorem cell_corner (h : S.Shut) {x y : HE} (hx : x < S.tri.size) (hy : NextSide S .delaunayCells x y) :
    0 < cross (S.vec x) (S.vec y) := by
  obtain ⟨k, rfl, -, h2⟩ := hy
  obtain ⟨e1, e2⟩ := fan_of_surface h (h.neg_lt hx) h2
  have := fan_cross (q := fun i => S.vec (S.tri.previousAtVertex^[i] (Verif.neg x))) e1 e2
  simp only [Function.iterate_zero, id_eq] at this
  rw [h.flat.odd x hx, cross_neg_right] at this
  refine lt_of_lt_of_eq this ?_
  simp only [cross]
  ring

/-- Turning clockwise from `e`, the first half edge that is a side of a cell is `y`, which can be `e` itself. -/
def Rep (S : FlatTri T) (e y : HE) : Prop :=
  ∃ k, y = S.tri.previousAtVertex^[k] e ∧ ¬ Inner S .delaunayCells y ∧ ∀ i < k, Inner S .delaunayCells (S.tri.previousAtVertex^[i] e)

theorem rep_exists (h : S.Shut) {e : HE} (he : e < S.tri.size) : ∃ y, Rep S e y := by
  classical
  have hex : ∃ k, ¬ Inner S .delaunayCells (S.tri.previousAtVertex^[k] e) := by
    by_contra hall
    push Not at hall
    obtain ⟨n, h1, h2⟩ := period' h he
    obtain ⟨e1, e2⟩ := fan_of_surface h he (k := n - 1) fun i _ => hall _
    have := fan_cross (q := fun i => S.vec (S.tri.previousAtVertex^[i] e)) e1 e2
    simp only [Function.iterate_zero, id_eq] at this
    rw [show n - 1 + 1 = n by omega, h2] at this
    simp [cross_self] at this
  exact ⟨_, Nat.find hex, rfl, Nat.find_spec hex, fun i hi => not_not.1 (Nat.find_min hex hi)⟩

theorem rep_inner {e y : HE} (hi : Inner S .delaunayCells e) : Rep S e y ↔ Rep S (S.tri.previousAtVertex e) y := by
  constructor
  · rintro ⟨k, rfl, h1, h2⟩
    cases k with
    | zero => exact absurd hi h1
    | succ k =>
      refine ⟨k, rfl, h1, fun i hik => ?_⟩
      exact h2 (i + 1) (by omega)
  · rintro ⟨k, rfl, h1, h2⟩
    refine ⟨k + 1, rfl, h1, fun i hik => ?_⟩
    cases i with
    | zero => exact hi
    | succ i => exact h2 i (by omega)

theorem rep_side {e y : HE} (hi : ¬ Inner S .delaunayCells e) (hy : Rep S e y) : y = e := by
  obtain ⟨k, rfl, h1, h2⟩ := hy
  cases k with
  | zero => rfl
  | succ k => exact absurd (h2 0 (by omega)) hi

theorem rep_self {e : HE} (hi : ¬ Inner S .delaunayCells e) : Rep S e e := ⟨0, rfl, hi, by simp⟩

theorem nextSide_rep (h : S.Shut) {e y : HE} (he : e < S.tri.size) : NextSide S .delaunayCells e y ↔ Rep S (S.tri.nextInFace e) y := by
  rw [← previous_eq h he]
  unfold NextSide FirstSide Rep
  simp only [Function.iterate_succ_apply]

/-- The cotangent of the angle opposite to a half edge is `num e / area e`. -/
def cotNum (S : FlatTri T) (e : HE) : T := -dot (S.vec (S.tri.faces.fwd e)) (S.vec (S.tri.faces.fwd (S.tri.faces.fwd e)))

def cotDen (S : FlatTri T) (e : HE) : T := cross (S.vec (S.tri.faces.fwd e)) (S.vec (S.tri.faces.fwd (S.tri.faces.fwd e)))

/-- The angle opposite to `e` is bigger than the angle opposite to `x`. -/
def Bigger (S : FlatTri T) (e x : HE) : Prop := S.cotNum e * S.cotDen x < S.cotNum x * S.cotDen e

theorem cotDen_pos (h : S.Shut) {e : HE} (he : e < S.tri.size) : 0 < S.cotDen e := h.flat.oriented _ (h.nb _ (h.next_lt he))

theorem bigger_trans (h : S.Shut) {e f x : HE} (he : e < S.tri.size) (hf : f < S.tri.size) (hx : x < S.tri.size) (h1 : Bigger S e f)
    (h2 : Bigger S f x) : Bigger S e x := by
  have p1 := cotDen_pos h he
  have p2 := cotDen_pos h hf
  have p3 := cotDen_pos h hx
  unfold Bigger at *
  have e1 := mul_lt_mul_of_pos_right h1 p3
  have e2 := mul_lt_mul_of_pos_right h2 p1
  refine lt_of_mul_lt_mul_right (a := S.cotDen f) ?_ p2.le
  linarith

theorem bigger_across (h : S.Shut) {e : HE} (he : e < S.tri.size) (hi : Inner S .delaunayCells e) :
    Bigger S e (S.tri.faces.fwd (Verif.neg e)) ∧ Bigger S e (S.tri.faces.fwd (S.tri.faces.fwd (Verif.neg e))) := by
  rw [inner_iff h he] at hi
  have hn := h.neg_lt he
  have q := h.quad he
  have q' := h.quad hn
  have pe := cotDen_pos h he
  have hsum := h.flat.closed _ (h.nb _ hn)
  unfold incircle at hi
  have hd := dot_self_pos (h.flat.vec_ne (h.nb _ (h.next_lt (h.next_lt hn))))
  have hc := dot_self_pos (h.flat.vec_ne (h.nb _ (h.next_lt hn)))
  unfold Bigger cotNum cotDen at *
  rw [h.next3 (Verif.neg e)]
  generalize S.vec (S.tri.faces.fwd (S.tri.faces.fwd (Verif.neg e))) = d at *
  generalize S.vec (S.tri.faces.fwd (Verif.neg e)) = c at *
  have hv : S.vec (Verif.neg e) = -c - d := by
    rw [← sub_eq_zero, ← hsum]
    abel
  rw [hv]
  generalize S.vec (S.tri.faces.fwd e) = a at *
  generalize S.vec (S.tri.faces.fwd (S.tri.faces.fwd e)) = b at *
  constructor
  · have := mul_pos hd pe
    have key : -dot d (-c - d) * cross a b - -dot a b * cross d (-c - d) = dot d d * cross a b + (cross c d * dot a b + dot c d * cross a b) := by
      simp only [cross, dot, sub_x, sub_y, neg_x, neg_y]
      ring
    rw [hi, add_zero] at key
    linarith
  · have := mul_pos hc pe
    have key : -dot (-c - d) c * cross a b - -dot a b * cross (-c - d) c = dot c c * cross a b + (cross c d * dot a b + dot c d * cross a b) := by
      simp only [cross, dot, sub_x, sub_y, neg_x, neg_y]
      ring
    rw [hi, add_zero] at key
    linarith

/-- The number of half edges with a smaller opposite angle. -/
noncomputable def smaller (S : FlatTri T) (e : HE) : ℕ := by
  classical exact ((Finset.range S.tri.size).filter fun x => Bigger S e x).card

theorem smaller_lt (h : S.Shut) {e f : HE} (he : e < S.tri.size) (hf : f < S.tri.size) (hb : Bigger S e f) : S.smaller f < S.smaller e := by
  classical
  unfold smaller
  refine Finset.card_lt_card ?_
  rw [Finset.ssubset_iff_of_subset]
  · refine ⟨f, by simp [hf, hb], ?_⟩
    rw [Finset.mem_filter]
    exact fun e => lt_irrefl _ e.2
  · intro x hx
    rw [Finset.mem_filter, Finset.mem_range] at hx ⊢
    exact ⟨hx.1, bigger_trans h he hf hx.1 hb hx.2⟩

/-- There are sides of cells. -/
theorem side_exists (h : S.Shut) {e : HE} (he : e < S.tri.size) : ∃ x, CellSide S .delaunayCells x := by
  obtain ⟨y, k, rfl, h1, -⟩ := rep_exists h he
  exact ⟨_, previous_lt h he k, h1⟩

/-- The steps to walk through the sides of cells. -/
abbrev SideStep (S : FlatTri T) (a b : HE) : Prop := b = Verif.neg a ∨ NextSide S .delaunayCells a b

theorem rep_next (h : S.Shut) : ∀ (n : ℕ) {e : HE}, S.smaller e = n → e < S.tri.size → ∀ {y y' : HE}, Rep S e y → Rep S (S.tri.nextInFace e) y' →
    Relation.ReflTransGen (SideStep S) y y' := by
  intro n
  induction n using Nat.strong_induction_on with
  | _ n ih =>
    intro e hn he y y' hy hy'
    by_cases hi : Inner S .delaunayCells e
    · obtain ⟨b1, b2⟩ := bigger_across h he hi
      have l0 := h.neg_lt he
      have l1 := h.next_lt l0
      have l2 := h.next_lt l1
      obtain ⟨z, hz⟩ := rep_exists h l2
      have e1 : S.tri.previousAtVertex e = S.tri.faces.fwd (Verif.neg e) := by
        have := previous_eq h l0
        rwa [neg_neg'] at this
      have r1 := (rep_inner hi).1 hy
      rw [e1] at r1
      have p1 := ih _ (by rw [← hn]; exact smaller_lt h he l1 b1) rfl l1 r1 hz
      refine p1.trans (ih _ (by rw [← hn]; exact smaller_lt h he l2 b2) rfl l2 hz ?_)
      have e2 : S.tri.nextInFace (S.tri.faces.fwd (S.tri.faces.fwd (Verif.neg e))) = Verif.neg e := h.next3 _
      rw [e2, rep_inner (inner_neg.2 hi), previous_eq h he]
      exact hy'
    · rw [rep_side hi hy]
      exact .single (.inr ((nextSide_rep h he).2 hy'))

theorem rep_neg (h : S.Shut) {e y y' : HE} (he : e < S.tri.size) (hy : Rep S e y) (hy' : Rep S (Verif.neg e) y') :
    Relation.ReflTransGen (SideStep S) y y' := by
  by_cases hi : Inner S .delaunayCells e
  · have l0 := h.neg_lt he
    have l1 := h.next_lt l0
    have l2 := h.next_lt l1
    obtain ⟨z, hz⟩ := rep_exists h l2
    have e1 : S.tri.previousAtVertex e = S.tri.faces.fwd (Verif.neg e) := by
      have := previous_eq h l0
      rwa [neg_neg'] at this
    have r1 := (rep_inner hi).1 hy
    rw [e1] at r1
    refine (rep_next h _ rfl l1 r1 hz).trans (rep_next h _ rfl l2 hz ?_)
    have e2 : S.tri.nextInFace (S.tri.faces.fwd (S.tri.faces.fwd (Verif.neg e))) = Verif.neg e := h.next3 _
    rw [e2]
    exact hy'
  · rw [rep_side hi hy, rep_side (fun e => hi (inner_neg.1 e)) hy']
    exact .single (.inl rfl)

/-- Delaunay cells of a connected surface are convex and connected. -/
theorem delaunayCells_proper (h : S.Shut) (hc : ConnectedSurface S.tri) : ProperCells S .delaunayCells where
  nonempty := side_exists h hc.nonempty
  corner x y hx hy := cell_corner h hx.1 hy
  path x y hx hy := by
    have key : ∀ z, Relation.ReflTransGen (fun a b => b = Verif.neg a ∨ b = S.tri.nextAtVertex a) x z →
        z < S.tri.size ∧ ∀ w, Rep S z w → Relation.ReflTransGen (SideStep S) x w := by
      intro z hz
      induction hz with
      | refl => exact ⟨hx.1, fun w hw => by rw [rep_side hx.2 hw]⟩
      | @tail b d _ hbd ih =>
        obtain ⟨hb, ih⟩ := ih
        obtain ⟨v, hv⟩ := rep_exists h hb
        rcases hbd with rfl | rfl
        · exact ⟨h.neg_lt hb, fun w hw => (ih v hv).trans (rep_neg h hb hv hw)⟩
        · refine ⟨h.around_lt true hb, fun w hw => ?_⟩
          have l1 := h.next_lt hb
          have l2 := h.next_lt l1
          obtain ⟨v1, hv1⟩ := rep_exists h l1
          obtain ⟨v2, hv2⟩ := rep_exists h l2
          have e : S.tri.nextAtVertex b = Verif.neg (S.tri.faces.fwd (S.tri.faces.fwd b)) := (h.quad hb).ve
          rw [e] at hw
          exact (((ih v hv).trans (rep_next h _ rfl hb hv hv1)).trans (rep_next h _ rfl l1 hv1 hv2)).trans (rep_neg h l2 hv2 hw)
    exact (key y (hc.path x hx.1 y hy.1)).2 y (rep_self hy.2)

/-! ### The number of triangles is determined by the cells -/

/-- The direction `u` points into the triangle to the left of `e` at its source. -/
def PointsInto (S : FlatTri T) (u : Vec T) (e : HE) : Prop := 0 ≤ cross (S.vec e) u ∧ 0 < cross u (S.vec (S.tri.nextAtVertex e))

theorem sign_count {a b c : T} (hs : a + b + c = 0) (hz : ¬ (a = 0 ∧ b = 0 ∧ c = 0)) [Decidable (0 ≤ a ∧ 0 < c)] [Decidable (a ≤ 0 ∧ c < 0)]
    [Decidable (0 ≤ b ∧ 0 < a)] [Decidable (b ≤ 0 ∧ a < 0)] [Decidable (0 ≤ c ∧ 0 < b)] [Decidable (c ≤ 0 ∧ b < 0)] :
    ((if 0 ≤ a ∧ 0 < c then 1 else 0) + if a ≤ 0 ∧ c < 0 then 1 else 0) + ((if 0 ≤ b ∧ 0 < a then 1 else 0) + if b ≤ 0 ∧ a < 0 then 1 else 0) +
      ((if 0 ≤ c ∧ 0 < b then 1 else 0) + if c ≤ 0 ∧ b < 0 then 1 else 0) = 1 := by
  have tri : ∀ s : T, (s < 0 ∧ s ≤ 0 ∧ ¬ 0 ≤ s ∧ ¬ 0 < s) ∨ (s ≤ 0 ∧ 0 ≤ s ∧ ¬ 0 < s ∧ ¬ s < 0) ∨ (0 < s ∧ ¬ s ≤ 0 ∧ 0 ≤ s ∧ ¬ s < 0) := by
    intro s
    rcases lt_trichotomy s 0 with h | h | h
    · exact .inl ⟨h, h.le, not_le.2 h, not_lt.2 h.le⟩
    · exact .inr (.inl ⟨h.le, h.ge, not_lt.2 h.le, not_lt.2 h.ge⟩)
    · exact .inr (.inr ⟨h, not_le.2 h, h.le, not_lt.2 h.le⟩)
  rcases tri a with ⟨a1, a2, a3, a4⟩ | ⟨a1, a2, a3, a4⟩ | ⟨a1, a2, a3, a4⟩ <;>
  rcases tri b with ⟨b1, b2, b3, b4⟩ | ⟨b1, b2, b3, b4⟩ | ⟨b1, b2, b3, b4⟩ <;>
  rcases tri c with ⟨c1, c2, c3, c4⟩ | ⟨c1, c2, c3, c4⟩ | ⟨c1, c2, c3, c4⟩ <;>
  first
    | (exfalso; exact hz ⟨le_antisymm ‹a ≤ 0› ‹0 ≤ a›, le_antisymm ‹b ≤ 0› ‹0 ≤ b›, le_antisymm ‹c ≤ 0› ‹0 ≤ c›⟩)
    | (exfalso; linarith)
    | (clear hs hz tri; simp [*])

theorem pointsInto_count (h : S.Shut) {u : Vec T} (hu : u ≠ 0) [DecidablePred (PointsInto S u)] [DecidablePred (PointsInto S (-u))] :
    3 * (((Finset.range S.tri.size).filter (PointsInto S u)).card + ((Finset.range S.tri.size).filter (PointsInto S (-u))).card) =
      S.tri.size := by
  classical
  let g : HE → ℕ := fun e => (if PointsInto S u e then 1 else 0) + if PointsInto S (-u) e then 1 else 0
  have hsum : ∑ e ∈ Finset.range S.tri.size, g e = ((Finset.range S.tri.size).filter (PointsInto S u)).card +
      ((Finset.range S.tri.size).filter (PointsInto S (-u))).card := by
    rw [Finset.sum_add_distrib, Finset.card_filter, Finset.card_filter]
  have hshift : ∀ f : HE → ℕ, ∑ e ∈ Finset.range S.tri.size, f (S.tri.faces.fwd e) = ∑ e ∈ Finset.range S.tri.size, f e := by
    intro f
    refine Finset.sum_bij (fun e _ => S.tri.faces.fwd e) (fun e he => ?_) (fun a _ b _ e => h.flat.coh.hf.inj e) (fun b hb => ?_) fun _ _ => rfl
    · rw [Finset.mem_range] at he ⊢
      exact h.next_lt he
    · rw [Finset.mem_range] at hb
      exact ⟨S.tri.faces.fwd (S.tri.faces.fwd b), Finset.mem_range.2 (h.next_lt (h.next_lt hb)), h.next3 b⟩
  have hone : ∀ e ∈ Finset.range S.tri.size, g e + g (S.tri.faces.fwd e) + g (S.tri.faces.fwd (S.tri.faces.fwd e)) = 1 := by
    intro e he
    rw [Finset.mem_range] at he
    have l1 := h.next_lt he
    have l2 := h.next_lt l1
    have hcl := h.flat.closed e (h.nb e he)
    have hpos := h.flat.oriented e (h.nb e he)
    have hat : ∀ x < S.tri.size, ∀ w : Vec T, PointsInto S w x ↔ 0 ≤ cross (S.vec x) w ∧ 0 < cross (S.vec (S.tri.faces.fwd (S.tri.faces.fwd x))) w := by
      intro x hx w
      unfold PointsInto
      rw [show S.tri.nextAtVertex x = Verif.neg (S.tri.faces.fwd (S.tri.faces.fwd x)) from (h.quad hx).ve,
        h.flat.odd _ (h.next_lt (h.next_lt hx))]
      rw [show cross w (-S.vec (S.tri.faces.fwd (S.tri.faces.fwd x))) = cross (S.vec (S.tri.faces.fwd (S.tri.faces.fwd x))) w by
        simp only [cross, neg_x, neg_y]; ring]
    have hflip : ∀ v : Vec T, cross v (-u) = -cross v u := fun v => cross_neg_right v u
    simp only [g, hat _ he, hat _ l1, hat _ l2, h.next3, hflip, neg_nonneg, neg_pos]
    have hs : cross (S.vec e) u + cross (S.vec (S.tri.faces.fwd e)) u + cross (S.vec (S.tri.faces.fwd (S.tri.faces.fwd e))) u = 0 := by
      have : cross (S.vec e + S.vec (S.tri.faces.fwd e) + S.vec (S.tri.faces.fwd (S.tri.faces.fwd e))) u = 0 := by
        rw [hcl]
        simp [cross]
      rw [← this]
      simp only [cross, add_x, add_y]
      ring
    refine sign_count hs ?_
    rintro ⟨z1, z2, -⟩
    apply hu
    have e1 : cross (S.vec e) (S.vec (S.tri.faces.fwd e)) * u.x = 0 := by
      have : cross (S.vec e) (S.vec (S.tri.faces.fwd e)) * u.x =
          (S.vec (S.tri.faces.fwd e)).x * cross (S.vec e) u - (S.vec e).x * cross (S.vec (S.tri.faces.fwd e)) u := by
        simp only [cross]; ring
      rw [this, z1, z2]; ring
    have e2 : cross (S.vec e) (S.vec (S.tri.faces.fwd e)) * u.y = 0 := by
      have : cross (S.vec e) (S.vec (S.tri.faces.fwd e)) * u.y =
          (S.vec (S.tri.faces.fwd e)).y * cross (S.vec e) u - (S.vec e).y * cross (S.vec (S.tri.faces.fwd e)) u := by
        simp only [cross]; ring
      rw [this, z1, z2]; ring
    ext
    · exact (mul_eq_zero.1 e1).resolve_left hpos.ne'
    · exact (mul_eq_zero.1 e2).resolve_left hpos.ne'
  rw [← hsum]
  have e1 := hshift g
  have e2 := hshift fun e => g (S.tri.faces.fwd e)
  have e3 := Finset.sum_congr rfl hone
  rw [Finset.sum_add_distrib, Finset.sum_add_distrib, Finset.sum_const, Finset.card_range, smul_eq_mul, mul_one] at e3
  rw [e1] at e2
  omega

/-- Turning counterclockwise from `e`, the next side is `z`. Then, one gets to `e` when turning clockwise from `z`. -/
theorem firstSide_back {f g : HE → HE} (hfg : Function.LeftInverse g f) {inner : HE → Prop} {e z : HE} (h : FirstSide f inner e z) :
    ∃ i, e = g^[i + 1] z ∧ ∀ j < i, inner (g^[j + 1] z) := by
  obtain ⟨k, rfl, h1, h2⟩ := h
  have hit : ∀ i, i ≤ k + 1 → g^[i] (f^[k + 1] e) = f^[k + 1 - i] e := by
    intro i hi
    obtain ⟨j, hj⟩ := Nat.exists_eq_add_of_le hi
    rw [hj, show i + j - i = j by omega, Function.iterate_add_apply]
    exact hfg.iterate i _
  refine ⟨k, ?_, fun i hi => ?_⟩
  · rw [hit _ le_rfl]
    simp
  · rw [hit _ (by omega), show k + 1 - (i + 1) = k - 1 - i + 1 by omega]
    exact h2 _ (by omega)

theorem nextFirst_exists (h : S.Shut) {e : HE} (he : e < S.tri.size) : ∃ z, FirstSide S.tri.nextAtVertex (Inner S .delaunayCells) e z := by
  classical
  have hex : ∃ k, ¬ Inner S .delaunayCells (S.tri.nextAtVertex^[k + 1] e) := by
    obtain ⟨y, k, rfl, h1, -⟩ := rep_exists h he
    obtain ⟨n, n1, n2⟩ := period h he
    refine ⟨n * (k + 1) - k - 1, ?_⟩
    have hn : k + 1 ≤ n * (k + 1) := Nat.le_mul_of_pos_left _ n1
    have hit : S.tri.nextAtVertex^[n * (k + 1)] e = e := by
      rw [Function.iterate_mul]
      exact Function.iterate_fixed n2 _
    have : S.tri.nextAtVertex^[n * (k + 1) - k - 1 + 1] e = S.tri.previousAtVertex^[k] e := by
      conv_rhs => rw [← hit, show n * (k + 1) = k + (n * (k + 1) - k - 1 + 1) by omega, Function.iterate_add_apply]
      exact (Function.LeftInverse.iterate h.flat.coh.hv.left k _).symm
    rw [this]
    exact h1
  exact ⟨_, Nat.find hex, rfl, Nat.find_spec hex, fun i hi => not_not.1 (Nat.find_min hex hi)⟩

theorem pointsInto_cells (h : S.Shut) {F : Finset HE} (hF : ∀ x, x ∈ F ↔ CellSide S .delaunayCells x) {c : HE → HE}
    (hc : ∀ x, CellSide S .delaunayCells x → NextSide S .delaunayCells x (c x)) (u : Vec T) [DecidablePred (PointsInto S u)]
    [DecidablePred fun x => 0 ≤ cross (S.vec (c x)) u ∧ 0 < cross (S.vec x) u] :
    ((Finset.range S.tri.size).filter (PointsInto S u)).card = (F.filter fun x => 0 ≤ cross (S.vec (c x)) u ∧ 0 < cross (S.vec x) u).card := by
  classical
  have hv := h.flat.coh.hv
  have hz : ∀ e, ∃ z, e < S.tri.size → FirstSide S.tri.nextAtVertex (Inner S .delaunayCells) e z := by
    intro e
    by_cases he : e < S.tri.size
    · obtain ⟨z, hz⟩ := nextFirst_exists h he
      exact ⟨z, fun _ => hz⟩
    · exact ⟨0, fun h => absurd h he⟩
  choose z hz using hz
  have hside : ∀ e < S.tri.size, CellSide S .delaunayCells (z e) := fun e he => firstSide_side (fun x hx => h.around_lt true hx) he (hz e he)
  -- The corner of a cell and the corners of triangles in it.
  have key : ∀ x, CellSide S .delaunayCells x → ∃ k, c x = S.tri.previousAtVertex^[k + 1] (Verif.neg x) ∧
      (∀ i < k, Inner S .delaunayCells (S.tri.previousAtVertex^[i + 1] (Verif.neg x))) ∧ ¬ Inner S .delaunayCells (c x) ∧
      ((0 ≤ cross (S.vec (c x)) u ∧ 0 < cross (S.vec x) u) ↔ ∃ i ≤ k, PointsInto S u (S.tri.previousAtVertex^[i + 1] (Verif.neg x))) ∧
      ∀ i ≤ k, ∀ j ≤ k, PointsInto S u (S.tri.previousAtVertex^[i + 1] (Verif.neg x)) →
        PointsInto S u (S.tri.previousAtVertex^[j + 1] (Verif.neg x)) → i = j := by
    intro x hx
    obtain ⟨k, e1, e2, e3⟩ := hc x hx
    obtain ⟨f1, f2⟩ := fan_of_surface h (h.neg_lt hx.1) e3
    obtain ⟨g1, g2⟩ := fan_sector (q := fun i => S.vec (S.tri.previousAtVertex^[i] (Verif.neg x))) f1 f2 u
    have hp : ∀ i, PointsInto S u (S.tri.previousAtVertex^[i + 1] (Verif.neg x)) ↔
        0 ≤ cross (S.vec (S.tri.previousAtVertex^[i + 1] (Verif.neg x))) u ∧ 0 < cross u (S.vec (S.tri.previousAtVertex^[i] (Verif.neg x))) := by
      intro i
      unfold PointsInto
      rw [show S.tri.nextAtVertex (S.tri.previousAtVertex^[i + 1] (Verif.neg x)) = S.tri.previousAtVertex^[i] (Verif.neg x) by
        rw [Function.iterate_succ_apply']
        exact hv.right _]
    refine ⟨k, e1, e3, e2, ?_, fun i hi j hj hi' hj' => g2 i hi j hj ((hp i).1 hi') ((hp j).1 hj')⟩
    simp only [hp]
    simp only [Function.iterate_zero, id_eq] at g1
    rw [h.flat.odd x hx.1, show cross u (-S.vec x) = cross (S.vec x) u by simp only [cross, neg_x, neg_y]; ring] at g1
    rw [e1]
    exact g1
  have hpos : ∀ e < S.tri.size, ∃ i, e = S.tri.previousAtVertex^[i + 1] (z e) ∧
      ∀ k, ¬ Inner S .delaunayCells (S.tri.previousAtVertex^[k + 1] (z e)) → i ≤ k := by
    intro e he
    obtain ⟨i, e1, e2⟩ := firstSide_back hv.left (hz e he)
    refine ⟨i, e1, fun k hk => ?_⟩
    by_contra hlt
    exact hk (e2 k (by omega))
  refine Finset.card_bij (fun e _ => Verif.neg (z e)) (fun e he => ?_) (fun e he e' he' heq => ?_) fun x hx => ?_
  · rw [Finset.mem_filter, Finset.mem_range] at he
    have hx := cellSide_neg h (hside e he.1)
    rw [Finset.mem_filter]
    refine ⟨(hF _).2 hx, ?_⟩
    obtain ⟨k, k1, k2, k3, k4, -⟩ := key _ hx
    obtain ⟨i, i1, i2⟩ := hpos e he.1
    rw [neg_neg'] at k1 k4
    rw [k4]
    refine ⟨i, i2 k (by rw [← k1]; exact k3), ?_⟩
    rw [← i1]
    exact he.2
  · rw [Finset.mem_filter, Finset.mem_range] at he he'
    have heq' : z e = z e' := by
      have := congrArg Verif.neg heq
      rwa [neg_neg', neg_neg'] at this
    have hx := cellSide_neg h (hside e he.1)
    obtain ⟨k, k1, k2, k3, -, k5⟩ := key _ hx
    obtain ⟨i, i1, i2⟩ := hpos e he.1
    obtain ⟨j, j1, j2⟩ := hpos e' he'.1
    rw [← heq'] at j1 j2
    rw [neg_neg'] at k1 k5
    have hij := k5 i (i2 k (by rw [← k1]; exact k3)) j (j2 k (by rw [← k1]; exact k3)) (by rw [← i1]; exact he.2) (by rw [← j1]; exact he'.2)
    rw [i1, j1, hij]
  · rw [Finset.mem_filter] at hx
    have hxs := (hF x).1 hx.1
    obtain ⟨k, k1, k2, k3, k4, -⟩ := key x hxs
    obtain ⟨i, hi, hp⟩ := k4.1 hx.2
    have hlt := previous_lt h (h.neg_lt hxs.1) (i + 1)
    refine ⟨_, Finset.mem_filter.2 ⟨Finset.mem_range.2 hlt, hp⟩, ?_⟩
    have : FirstSide S.tri.nextAtVertex (Inner S .delaunayCells) (S.tri.previousAtVertex^[i + 1] (Verif.neg x)) (Verif.neg x) := by
      have hit : ∀ m, m ≤ i + 1 → S.tri.nextAtVertex^[m] (S.tri.previousAtVertex^[i + 1] (Verif.neg x)) =
          S.tri.previousAtVertex^[i + 1 - m] (Verif.neg x) := by
        intro m hm
        obtain ⟨j, hj⟩ := Nat.exists_eq_add_of_le hm
        rw [hj, show m + j - m = j by omega, Function.iterate_add_apply]
        exact (Function.LeftInverse.iterate (g := S.tri.nextAtVertex) (f := S.tri.previousAtVertex) hv.right m) _
      refine ⟨i, ?_, (cellSide_neg h hxs).2, fun j hj => ?_⟩
      · rw [hit _ le_rfl]
        simp
      · rw [hit _ (by omega), show i + 1 - (j + 1) = i - 1 - j + 1 by omega]
        exact k2 _ (by omega)
    rw [firstSide_unique (hz _ hlt) this, neg_neg']

/-- The number of triangles, in terms of the sides of cells. -/
theorem sameSign_count (h : S.Shut) {F : Finset HE} (hF : ∀ x, x ∈ F ↔ CellSide S .delaunayCells x) {c : HE → HE}
    (hc : ∀ x, CellSide S .delaunayCells x → NextSide S .delaunayCells x (c x)) {u : Vec T} (hu : u ≠ 0)
    (hg : ∀ x, CellSide S .delaunayCells x → cross (S.vec x) u ≠ 0)
    [DecidablePred fun x => 0 < cross (S.vec x) u * cross (S.vec (c x)) u] :
    3 * (F.filter fun x => 0 < cross (S.vec x) u * cross (S.vec (c x)) u).card = S.tri.size := by
  classical
  rw [← pointsInto_count h hu, pointsInto_cells h hF hc, pointsInto_cells h hF hc]
  congr 1
  rw [← Finset.card_union_of_disjoint]
  · congr 1
    ext x
    simp only [Finset.mem_union, Finset.mem_filter, cross_neg_right, neg_nonneg, neg_pos]
    rw [← and_or_left]
    refine and_congr_right fun hx => ?_
    have hx' := (hF x).1 hx
    have hn : CellSide S .delaunayCells (c x) := firstSide_side (fun x hx => h.around_lt false hx) (cellSide_neg h hx').1 (hc x hx')
    have g1 := hg x hx'
    have g2 := hg _ hn
    rw [mul_pos_iff]
    constructor
    · rintro (⟨a, b⟩ | ⟨a, b⟩)
      · exact .inl ⟨b.le, a⟩
      · exact .inr ⟨b.le, a⟩
    · rintro (⟨a, b⟩ | ⟨a, b⟩)
      · exact .inl ⟨b, lt_of_le_of_ne a g2.symm⟩
      · exact .inr ⟨b, lt_of_le_of_ne a g2⟩
  · rw [Finset.disjoint_left]
    intro x hx hx'
    rw [Finset.mem_filter] at hx hx'
    have := hx'.2.2
    rw [cross_neg_right] at this
    linarith [hx.2.2]

/-- There are directions that are not parallel to any half edge. -/
theorem generic_exists (h : S.Shut) : ∃ u : Vec T, u ≠ 0 ∧ ∀ x < S.tri.size, cross (S.vec x) u ≠ 0 := by
  classical
  have hfin : (⋃ x ∈ Finset.range S.tri.size, {t : T | cross (S.vec x) (⟨1, t⟩ : Vec T) = 0}).Finite := by
    refine Set.Finite.biUnion (Finset.finite_toSet _) fun x hx => ?_
    have hne := h.flat.vec_ne (h.nb x (by simpa using hx))
    refine Set.Subsingleton.finite ?_
    intro t ht t' ht'
    have e1 : (S.vec x).x * t - (S.vec x).y * 1 = 0 := ht
    have e2 : (S.vec x).x * t' - (S.vec x).y * 1 = 0 := ht'
    by_cases h0 : (S.vec x).x = 0
    · exfalso
      rw [h0] at e1
      exact hne (Vec.ext h0 (by simpa using e1))
    · refine mul_left_cancel₀ h0 ?_
      linear_combination e1 - e2
  obtain ⟨t, ht⟩ := hfin.exists_notMem
  refine ⟨⟨1, t⟩, fun e => one_ne_zero (congrArg Vec.x e), fun x hx e => ht ?_⟩
  simp only [Set.mem_iUnion]
  exact ⟨x, Finset.mem_range.2 hx, e⟩

theorem nextSide_inj (h : S.Shut) {kind : IsomorphismKind} {x x' y : HE} (hx : CellSide S kind x) (hx' : CellSide S kind x')
    (hy : NextSide S kind x y) (hy' : NextSide S kind x' y) : x = x' := by
  have e1 := firstSide_reverse (g := S.tri.nextAtVertex) h.flat.coh.hv.right (cellSide_neg h hx).2 hy
  have e2 := firstSide_reverse (g := S.tri.nextAtVertex) h.flat.coh.hv.right (cellSide_neg h hx').2 hy'
  have := congrArg Verif.neg (firstSide_unique e1 e2)
  rwa [neg_neg', neg_neg'] at this

theorem nextSide_surj (h : S.Shut) {kind : IsomorphismKind} {y : HE} (hy : CellSide S kind y) :
    ∃ x, CellSide S kind x ∧ NextSide S kind x y := by
  obtain ⟨z, hz⟩ := firstSide_exists (turn := S.tri.nextAtVertex) hy.2 (period h hy.1)
  have hz' : CellSide S kind z := firstSide_side (fun x hx => h.around_lt true hx) hy.1 hz
  refine ⟨Verif.neg z, cellSide_neg h hz', ?_⟩
  unfold NextSide
  rw [neg_neg']
  exact firstSide_reverse h.flat.coh.hv.left hy.2 hz

/-- Corners of cells that point into some direction are mapped to such corners, and their number is the number of triangles. -/
theorem corner_map {S' : FlatTri T} (h : S.Shut) (h' : S'.Shut) (hp' : ProperCells S' .delaunayCells) {M : Mat T} (hM : M.det ≠ 0) {σ : HE → HE}
    (hσ : CellCover S S' .delaunayCells (decide (0 < M.det)) σ)
    (hvec : ∀ x, CellSide S .delaunayCells x → S'.vec (σ x) = M.apply (S.vec x)) {c : HE → HE}
    (hc : ∀ x, CellSide S .delaunayCells x → NextSide S .delaunayCells x (c x)) :
    ∃ (G G' : Finset HE) (τ : HE → HE), (τ = fun x => if 0 < M.det then σ x else Verif.neg (σ (c x))) ∧ 3 * G.card = S.tri.size ∧
      3 * G'.card = S'.tri.size ∧ (∀ x ∈ G, CellSide S .delaunayCells x) ∧ (∀ x, CellSide S .delaunayCells x → (x ∈ G ↔ τ x ∈ G')) ∧
      ∀ y ∈ G', ∃ x ∈ G, τ x = y := by
  classical
  obtain ⟨F, hF⟩ := sides_finite S .delaunayCells
  obtain ⟨F', hF'⟩ := sides_finite S' .delaunayCells
  obtain ⟨c', _, hc0'⟩ := cellSides h' .delaunayCells false
  have hcs : ∀ x, CellSide S .delaunayCells x → CellSide S .delaunayCells (c x) := fun x hx =>
    firstSide_side (fun x hx => h.around_lt false hx) (cellSide_neg h hx).1 (hc x hx)
  have hc' : ∀ x, CellSide S' .delaunayCells x → NextSide S' .delaunayCells x (c' x) := fun x hx => (hc0' x hx).2.1
  have hcsurj : ∀ y, CellSide S .delaunayCells y → ∃ x, CellSide S .delaunayCells x ∧ c x = y := by
    intro y hy
    obtain ⟨x, hx, hxy⟩ := nextSide_surj h hy
    exact ⟨x, hx, firstSide_unique (hc x hx) hxy⟩
  obtain ⟨u, hu, hg⟩ := generic_exists h
  have hcross : ∀ a b : Vec T, cross (M.apply a) (M.apply b) = M.det * cross a b := by
    intro a b
    unfold Mat.apply Vec.applyMatrix Mat.det cross
    ring
  have hg' : ∀ y, CellSide S' .delaunayCells y → cross (S'.vec y) (M.apply u) ≠ 0 := by
    intro y hy
    obtain ⟨x, hx, rfl⟩ := hσ.surj y hy
    rw [hvec x hx, hcross]
    exact mul_ne_zero hM (hg x hx.1)
  have hu' : M.apply u ≠ 0 := by
    obtain ⟨y, hy⟩ := hp'.nonempty
    intro e
    apply hg' y hy
    rw [e]
    simp [cross]
  have count := sameSign_count h hF hc hu fun x hx => hg x hx.1
  have count' := sameSign_count h' hF' hc' hu' hg'
  -- The corners are mapped by `τ`.
  obtain ⟨τ, hτ⟩ : ∃ τ : HE → HE, τ = fun x => if 0 < M.det then σ x else Verif.neg (σ (c x)) := ⟨_, rfl⟩
  have hτside : ∀ x, CellSide S .delaunayCells x → CellSide S' .delaunayCells (τ x) := by
    intro x hx
    rw [hτ]
    dsimp only
    split_ifs
    · exact hσ.side x hx
    · exact cellSide_neg h' (hσ.side _ (hcs x hx))
  have hτnext : ∀ x, CellSide S .delaunayCells x → c' (τ x) = if 0 < M.det then σ (c x) else Verif.neg (σ x) := by
    intro x hx
    have hn := hσ.next x (c x) hx (hc x hx)
    have e := hc' _ (hτside x hx)
    rw [hτ] at e ⊢
    dsimp only at e ⊢
    split_ifs at e ⊢ with hd
    · simp only [hd, decide_true, if_true] at hn
      exact firstSide_unique e hn
    · simp only [hd, decide_false, Bool.false_eq_true, if_false] at hn
      exact firstSide_unique e hn
  have hτsurj : ∀ y, CellSide S' .delaunayCells y → ∃ x, CellSide S .delaunayCells x ∧ τ x = y := by
    intro y hy
    rw [hτ]
    dsimp only
    split_ifs
    · exact hσ.surj y hy
    · obtain ⟨x, hx, e⟩ := hσ.surj _ (cellSide_neg h' hy)
      obtain ⟨z, hz, rfl⟩ := hcsurj x hx
      exact ⟨z, hz, by rw [e, neg_neg']⟩
  have hτsign : ∀ x, CellSide S .delaunayCells x → (0 < cross (S'.vec (τ x)) (M.apply u) * cross (S'.vec (c' (τ x))) (M.apply u) ↔
      0 < cross (S.vec x) u * cross (S.vec (c x)) u) := by
    intro x hx
    have hsq : 0 < M.det * M.det := mul_self_pos.2 hM
    have e : cross (S'.vec (τ x)) (M.apply u) * cross (S'.vec (c' (τ x))) (M.apply u) =
        (M.det * M.det) * (cross (S.vec x) u * cross (S.vec (c x)) u) := by
      rw [hτnext x hx, hτ]
      dsimp only
      split_ifs
      · rw [hvec x hx, hvec _ (hcs x hx), hcross, hcross]
        ring
      · rw [h'.flat.odd _ (hσ.side _ (hcs x hx)).1, h'.flat.odd _ (hσ.side x hx).1, hvec x hx, hvec _ (hcs x hx), cross_neg_left,
          cross_neg_left, hcross, hcross]
        ring
    rw [e]
    exact mul_pos_iff_of_pos_left hsq
  refine ⟨_, _, τ, hτ, count, count', fun x hx => (hF x).1 (Finset.mem_filter.1 hx).1, fun x hx => ?_, fun y hy => ?_⟩
  · rw [Finset.mem_filter, Finset.mem_filter, hτsign x hx]
    exact and_congr_left fun _ => ⟨fun _ => (hF' _).2 (hτside x hx), fun _ => (hF x).2 hx⟩
  · rw [Finset.mem_filter] at hy
    obtain ⟨x, hx, rfl⟩ := hτsurj y ((hF' y).1 hy.1)
    exact ⟨x, Finset.mem_filter.2 ⟨(hF x).2 hx, (hτsign x hx).1 hy.2⟩, rfl⟩

/-- Coverings of surfaces with the same number of half edges are bijections. -/
theorem cover_injective {S' : FlatTri T} (h : S.Shut) (h' : S'.Shut) (hp' : ProperCells S' .delaunayCells) (hsize : S.tri.size = S'.tri.size) {M : Mat T}
    (hM : M.det ≠ 0) {σ : HE → HE} (hσ : CellCover S S' .delaunayCells (decide (0 < M.det)) σ)
    (hvec : ∀ x, CellSide S .delaunayCells x → S'.vec (σ x) = M.apply (S.vec x)) :
    ∀ x y, CellSide S .delaunayCells x → CellSide S .delaunayCells y → σ x = σ y → x = y := by
  classical
  obtain ⟨c, _, hc0⟩ := cellSides h .delaunayCells false
  have hc : ∀ x, CellSide S .delaunayCells x → NextSide S .delaunayCells x (c x) := fun x hx => (hc0 x hx).2.1
  have hcs : ∀ x, CellSide S .delaunayCells x → CellSide S .delaunayCells (c x) := fun x hx => (hc0 x hx).1
  have hcsurj : ∀ y, CellSide S .delaunayCells y → ∃ x, CellSide S .delaunayCells x ∧ c x = y := by
    intro y hy
    obtain ⟨x, hx, hxy⟩ := nextSide_surj h hy
    exact ⟨x, hx, firstSide_unique (hc x hx) hxy⟩
  obtain ⟨G, G', τ, hτ, g1, g2, g3, g4, g5⟩ := corner_map h h' hp' hM hσ hvec hc
  have hinj := Finset.injOn_of_surjOn_of_card_le (s := G) (t := G') τ (fun x hx => (g4 x (g3 x hx)).1 hx) (fun y hy => g5 y hy) (by omega)
  -- There is a side with a single preimage.
  obtain ⟨x₀, hx₀⟩ : G.Nonempty := by
    rw [← Finset.card_pos]
    obtain ⟨y, hy⟩ := hp'.nonempty
    have := hy.1
    omega
  have hx₀s := g3 x₀ hx₀
  have hτfib : ∀ x, CellSide S .delaunayCells x → τ x = τ x₀ → x = x₀ := fun x hx e =>
    hinj ((g4 x hx).2 (by rw [e]; exact (g4 x₀ hx₀s).1 hx₀)) hx₀ e
  obtain ⟨y₀, hy₀, hfib⟩ : ∃ y₀, CellSide S' .delaunayCells y₀ ∧ ∀ x x', CellSide S .delaunayCells x → CellSide S .delaunayCells x' →
      σ x = y₀ → σ x' = y₀ → x = x' := by
    by_cases hd : 0 < M.det
    · refine ⟨σ x₀, hσ.side _ hx₀s, fun x x' hx hx' e e' => ?_⟩
      simp only [hτ, hd, if_true] at hτfib
      rw [hτfib x hx e, hτfib x' hx' e']
    · refine ⟨σ (c x₀), hσ.side _ (hcs _ hx₀s), fun x x' hx hx' e e' => ?_⟩
      simp only [hτ, hd, if_false] at hτfib
      obtain ⟨z, hz, rfl⟩ := hcsurj x hx
      obtain ⟨z', hz', rfl⟩ := hcsurj x' hx'
      rw [hτfib z hz (by rw [e]), hτfib z' hz' (by rw [e'])]
  intro x y hx hy hxy
  suffices H : CellSide S' .delaunayCells (σ x) ∧ ∀ a b, CellSide S .delaunayCells a → CellSide S .delaunayCells b →
      σ a = σ x → σ b = σ x → a = b from H.2 x y hx hy rfl hxy.symm
  have hpath := hp'.path y₀ (σ x) hy₀ (hσ.side x hx)
  generalize σ x = w at hpath
  clear hxy hx hy
  induction hpath with
  | refl => exact ⟨hy₀, hfib⟩
  | @tail v w _ hvw ih =>
    obtain ⟨hv, ih⟩ := ih
    rcases hvw with rfl | hvw
    · refine ⟨cellSide_neg h' hv, fun a b ha hb ea eb => ?_⟩
      have := ih _ _ (cellSide_neg h ha) (cellSide_neg h hb) (by rw [hσ.opposite a ha, ea, neg_neg'])
        (by rw [hσ.opposite b hb, eb, neg_neg'])
      exact neg_inj'.1 this
    · have hw : CellSide S' .delaunayCells w := firstSide_side (fun x hx => h'.around_lt false hx) (cellSide_neg h' hv).1 hvw
      refine ⟨hw, fun a b ha hb ea eb => ?_⟩
      by_cases hd : 0 < M.det
      · have hn := hσ.next
        simp only [hd, decide_true, if_true] at hn
        obtain ⟨z, hz, hza⟩ := nextSide_surj h ha
        obtain ⟨z', hz', hzb⟩ := nextSide_surj h hb
        have e1 := hn z a hz hza
        have e2 := hn z' b hz' hzb
        rw [ea] at e1
        rw [eb] at e2
        have := ih z z' hz hz' (nextSide_inj h' (hσ.side z hz) hv e1 hvw) (nextSide_inj h' (hσ.side z' hz') hv e2 hvw)
        subst this
        exact firstSide_unique hza hzb
      · have hn := hσ.next
        simp only [hd, decide_false, Bool.false_eq_true, if_false] at hn
        have side : ∀ a, CellSide S .delaunayCells a → σ a = w → σ (Verif.neg (c (Verif.neg a))) = v := by
          intro a ha ea
          have hna := cellSide_neg h ha
          have e := hn _ _ hna (hc _ hna)
          rw [hσ.opposite a ha, neg_neg', ea] at e
          rw [hσ.opposite _ (hcs _ hna)]
          exact nextSide_inj h' (cellSide_neg h' (hσ.side _ (hcs _ hna))) hv e hvw
        have hna := cellSide_neg h ha
        have hnb := cellSide_neg h hb
        have e := neg_inj'.1 (ih _ _ (cellSide_neg h (hcs _ hna)) (cellSide_neg h (hcs _ hnb)) (side a ha ea) (side b hb eb))
        have h1 := hc _ hna
        have h2 := hc _ hnb
        rw [e] at h1
        exact neg_inj'.1 (nextSide_inj h hna hnb h1 h2)

/-- Surfaces with the same cells have the same number of half edges. -/
theorem cells_size {S' : FlatTri T} (h : S.Shut) (h' : S'.Shut) (hp' : ProperCells S' .delaunayCells) {M : Mat T} (hM : M.det ≠ 0) {σ : HE → HE}
    (hσ : CellMap S S' .delaunayCells (decide (0 < M.det)) σ)
    (hvec : ∀ x, CellSide S .delaunayCells x → S'.vec (σ x) = M.apply (S.vec x)) : S.tri.size = S'.tri.size := by
  obtain ⟨c, _, hc0⟩ := cellSides h .delaunayCells false
  have hc : ∀ x, CellSide S .delaunayCells x → NextSide S .delaunayCells x (c x) := fun x hx => (hc0 x hx).2.1
  have hcs : ∀ x, CellSide S .delaunayCells x → CellSide S .delaunayCells (c x) := fun x hx => (hc0 x hx).1
  obtain ⟨G, G', τ, hτ, g1, g2, g3, g4, g5⟩ := corner_map h h' hp' hM ⟨hσ.side, hσ.surj, hσ.opposite, hσ.next⟩ hvec hc
  rw [← g1, ← g2]
  congr 1
  refine Finset.card_bij (fun x _ => τ x) (fun x hx => (g4 x (g3 x hx)).1 hx) (fun x hx y hy e => ?_) fun y hy => ?_
  · rw [hτ] at e
    dsimp only at e
    split_ifs at e
    · exact hσ.inj x y (g3 x hx) (g3 y hy) e
    · have e' := hσ.inj _ _ (hcs x (g3 x hx)) (hcs y (g3 y hy)) (neg_inj'.1 e)
      have h1 := hc x (g3 x hx)
      rw [e'] at h1
      exact nextSide_inj h (g3 x hx) (g3 y hy) h1 (hc y (g3 y hy))
  · obtain ⟨x, hx, e⟩ := g5 y hy
    exact ⟨x, hx, e⟩

end FlatTri

end Verif
