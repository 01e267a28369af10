import Verif.Spec.Equivalence
import Verif.Lemmas.WalkerIso
import Verif.Lemmas.MinWord
import Verif.Lemmas.Point
import Verif.Lemmas.Cone
import Mathlib.Algebra.Order.BigOperators.Group.Finset

/-!
The walk on a closed flat surface, in either orientation.
-/

set_option linter.unusedSectionVars false

namespace Verif

open Spec Walker

variable {T : Type} [CommRing T] [LinearOrder T] [IsStrictOrderedRing T]

/-- If an edge separated a surface, then the sides of the triangles on one side would sum up to that edge. -/
theorem bridge_of_sum {n : ℕ} {nxt : HE → HE} (hcube : ∀ x < n, nxt (nxt (nxt x)) = x) {u : HE → T}
    (hodd : ∀ x < n, u (neg x) = -u x) (hsum : ∀ x < n, u x + u (nxt x) + u (nxt (nxt x)) = 0) {s : HE}
    {Q : Finset HE} (hQ : ∀ x ∈ Q, x < n) (hnext : ∀ x ∈ Q, nxt x ∈ Q) (hneg : ∀ x ∈ Q, x ≠ s → neg x ∈ Q) (hs : s ∈ Q)
    (hns : neg s ∉ Q) : u s = 0 := by
  have hinj : ∀ x ∈ Q, ∀ y ∈ Q, nxt x = nxt y → x = y := by
    intro x hx y hy hxy
    rw [← hcube x (hQ x hx), hxy, hcube y (hQ y hy)]
  have hshift : ∀ v : HE → T, ∑ x ∈ Q, v (nxt x) = ∑ x ∈ Q, v x := by
    intro v
    refine Finset.sum_bij (fun x _ => nxt x) (fun x hx => hnext x hx) (fun x hx y hy h => hinj x hx y hy h) ?_ (fun _ _ => rfl)
    intro y hy
    exact ⟨nxt (nxt y), hnext _ (hnext _ hy), hcube y (hQ y hy)⟩
  have h1 : ∑ x ∈ Q, u x = 0 := by
    have h2 : ∑ x ∈ Q, (u x + u (nxt x) + u (nxt (nxt x))) = 0 := Finset.sum_eq_zero fun x hx => hsum x (hQ x hx)
    rw [Finset.sum_add_distrib, Finset.sum_add_distrib, hshift u, hshift (fun x => u (nxt x)), hshift u] at h2
    have h3 : (3 : T) * ∑ x ∈ Q, u x = 0 := by linear_combination h2
    rcases mul_eq_zero.1 h3 with h | h
    · norm_num at h
    · exact h
  have h4 : ∑ x ∈ Q.erase s, u x = 0 := by
    have h5 : ∑ x ∈ Q.erase s, u (neg x) = ∑ x ∈ Q.erase s, u x := by
      refine Finset.sum_bij (fun x _ => neg x) ?_ (fun x _ y _ h => neg_inj'.1 h) ?_ (fun _ _ => rfl)
      · intro x hx
        rw [Finset.mem_erase] at hx ⊢
        refine ⟨?_, hneg x hx.2 hx.1⟩
        rintro hxs
        apply hns
        rw [← hxs, neg_neg']
        exact hx.2
      · intro y hy
        rw [Finset.mem_erase] at hy
        refine ⟨neg y, ?_, neg_neg' y⟩
        rw [Finset.mem_erase]
        refine ⟨?_, hneg y hy.2 hy.1⟩
        intro hys
        apply hns
        rw [← hys, neg_neg']
        exact hy.2
    have h6 : ∑ x ∈ Q.erase s, u (neg x) = -∑ x ∈ Q.erase s, u x := by
      rw [← Finset.sum_neg_distrib]
      exact Finset.sum_congr rfl fun x hx => hodd x (hQ x (Finset.mem_erase.1 hx).2)
    rw [h5] at h6
    linarith
  rw [← Finset.add_sum_erase Q u hs, h4, add_zero] at h1
  exact h1

/-- Triangles in the plane, which are glued by translations. -/
theorem cells_of_vec {n : ℕ} {nxt : HE → HE} (heven : n % 2 = 0) (hlt : ∀ x < n, nxt x < n)
    (hcube : ∀ x < n, nxt (nxt (nxt x)) = x) (hfix : ∀ x < n, nxt x ≠ x) {v : HE → Vec T} (hodd : ∀ x < n, v (neg x) = -v x)
    (hsum : ∀ x < n, v x + v (nxt x) + v (nxt (nxt x)) = 0) (hne : ∀ x < n, v x ≠ 0) : Cells n nxt := by
  refine ⟨heven, hlt, hcube, hfix, ?_, ?_⟩
  · intro x hx hc
    have h1 := hsum x hx
    rw [hc, hodd x hx] at h1
    have h2 := hne _ (hlt _ (hlt _ hx))
    rw [hc] at h2
    apply h2
    ext
    · have := congrArg Vec.x h1
      simpa using this
    · have := congrArg Vec.y h1
      simpa using this
  · intro s hs Q hQ hnext hneg hsQ
    by_contra hns
    apply hne s hs
    ext
    · exact bridge_of_sum hcube (u := fun x => (v x).x) (fun x hx => by simp [hodd x hx])
        (fun x hx => by simpa using congrArg Vec.x (hsum x hx)) hQ hnext hneg hsQ hns
    · exact bridge_of_sum hcube (u := fun x => (v x).y) (fun x hx => by simp [hodd x hx])
        (fun x hx => by simpa using congrArg Vec.y (hsum x hx)) hQ hnext hneg hsQ hns

namespace FlatTri.Shut

variable {S : FlatTri T}

theorem even (h : S.Shut) : S.tri.size % 2 = 0 := h.flat.coh.even

theorem faces_lt (h : S.Shut) {x : HE} (hx : x < S.tri.size) : S.tri.faces.fwd x < S.tri.size := by
  have := h.flat.coh.hf.fwd_lt (i := x) |>.2 (by rw [h.flat.coh.hs]; exact hx)
  rwa [h.flat.coh.hs] at this

theorem inv_eq (h : S.Shut) (x : HE) : S.tri.faces.inv x = S.tri.faces.fwd (S.tri.faces.fwd x) := by
  apply h.flat.coh.hf.inj
  rw [h.flat.coh.hf.right, h.flat.coh.tri]

/-- What comes before at a vertex. -/
theorem previousAtVertex (h : S.Shut) {x : HE} (hx : x < S.tri.size) :
    S.tri.previousAtVertex x = S.tri.faces.fwd (neg x) := by
  have hnx := neg_lt_of_even h.even hx
  have h1 := h.flat.coh.link' (x := S.tri.faces.fwd (neg x)) (h.nb _ (h.faces_lt hnx))
  rw [h.flat.coh.hf.left, neg_neg'] at h1
  unfold Tri.previousAtVertex
  conv_lhs => rw [← h1, h.flat.coh.hv.left]

theorem nextAtVertex (h : S.Shut) {x : HE} (hx : x < S.tri.size) :
    S.tri.nextAtVertex x = neg (S.tri.faces.fwd (S.tri.faces.fwd x)) := by
  unfold Tri.nextAtVertex
  rw [h.flat.coh.link' (h.nb x hx), h.inv_eq]

theorem advance_true (x : HE) : advance S.tri true x = S.tri.faces.fwd x := rfl

theorem advance_false (h : S.Shut) {x : HE} (hx : x < S.tri.size) :
    advance S.tri false x = neg (S.tri.faces.fwd (S.tri.faces.fwd (neg x))) := by
  have hnx := neg_lt_of_even h.even hx
  simp only [advance, Bool.false_eq_true, if_false]
  rw [h.previousAtVertex hx, h.previousAtVertex (neg_lt_of_even h.even (h.faces_lt hnx)), neg_neg']

/-- The half edges at a vertex in counterclockwise or clockwise order. -/
def around (S : FlatTri T) (o : Bool) (x : HE) : HE := if o then S.tri.nextAtVertex x else S.tri.previousAtVertex x

theorem cells (h : S.Shut) (o : Bool) : Cells S.tri.size (advance S.tri o) := by
  have tri := h.flat.coh.tri
  cases o with
  | true =>
    exact cells_of_vec h.even (fun x hx => h.faces_lt hx) (fun x _ => tri x) (fun x hx => h.nb x hx)
      (fun x hx => h.flat.odd x hx) (fun x hx => h.flat.closed x (h.nb x hx)) (fun x hx => h.flat.vec_ne (h.nb x hx))
  | false =>
    have hlt : ∀ x < S.tri.size, advance S.tri false x < S.tri.size := by
      intro x hx
      rw [h.advance_false hx]
      exact neg_lt_of_even h.even (h.faces_lt (h.faces_lt (neg_lt_of_even h.even hx)))
    have h2 : ∀ x < S.tri.size, advance S.tri false (advance S.tri false x) = neg (S.tri.faces.fwd (neg x)) := by
      intro x hx
      rw [h.advance_false (hlt x hx), h.advance_false hx, neg_neg', tri]
    refine cells_of_vec h.even hlt ?_ ?_ (v := S.vec) (fun x hx => h.flat.odd x hx) ?_ (fun x hx => h.flat.vec_ne (h.nb x hx))
    · intro x hx
      rw [h2 _ (hlt x hx), h.advance_false hx, neg_neg', tri, neg_neg']
    · intro x hx hc
      have hnx := neg_lt_of_even h.even hx
      rw [h.advance_false hx] at hc
      have h3 := congrArg neg hc
      rw [neg_neg'] at h3
      have h4 := tri (neg x)
      rw [h3] at h4
      exact h.nb _ hnx h4
    · intro x hx
      have hnx := neg_lt_of_even h.even hx
      rw [h2 x hx, h.advance_false hx]
      have h3 := h.flat.closed (neg x) (h.nb _ hnx)
      rw [h.flat.odd _ (h.faces_lt (h.faces_lt hnx)), h.flat.odd _ (h.faces_lt hnx)]
      have h4 := h.flat.odd x hx
      rw [h4] at h3
      ext
      · have := congrArg Vec.x h3
        simp only [Vec.add_x, Vec.neg_x, Vec.zero_x] at this ⊢
        linear_combination -this
      · have := congrArg Vec.y h3
        simp only [Vec.add_y, Vec.neg_y, Vec.zero_y] at this ⊢
        linear_combination -this

/-- Walking around vertices and walking around faces. -/
theorem around_eq (h : S.Shut) (o : Bool) {x : HE} (hx : x < S.tri.size) :
    around S o x = neg (advance S.tri o (advance S.tri o x)) := by
  have hnx := neg_lt_of_even h.even hx
  cases o with
  | true =>
    simp only [around, if_true]
    rw [h.nextAtVertex hx]
    rfl
  | false =>
    simp only [around, Bool.false_eq_true, if_false]
    rw [h.previousAtVertex hx, h.advance_false ((h.cells false).lt x hx), h.advance_false hx, neg_neg', neg_neg', h.flat.coh.tri]

theorem around_lt (h : S.Shut) (o : Bool) {x : HE} (hx : x < S.tri.size) : around S o x < S.tri.size := by
  rw [h.around_eq o hx]
  exact (h.cells o).neg_lt ((h.cells o).lt _ ((h.cells o).lt _ hx))

theorem advance_eq (h : S.Shut) (o : Bool) {x : HE} (hx : x < S.tri.size) :
    advance S.tri o x = neg (around S o (neg (around S o x))) := by
  have h1 := (h.cells o).lt x hx
  have h2 := (h.cells o).lt _ h1
  rw [h.around_eq o hx, neg_neg', h.around_eq o h2, neg_neg', (h.cells o).cube x hx]

theorem around_not (h : S.Shut) (o : Bool) {x : HE} (_hx : x < S.tri.size) : around S (!o) (around S o x) = x := by
  cases o with
  | true =>
    simp only [around, Bool.not_true, Bool.false_eq_true, if_false, if_true]
    exact h.flat.coh.hv.left x
  | false =>
    simp only [around, Bool.not_false, Bool.false_eq_true, if_false, if_true]
    exact h.flat.coh.hv.right x

theorem conn (h : S.Shut) (hc : ConnectedSurface S.tri) (o : Bool) : Conn S.tri.size (advance S.tri o) := by
  intro Q hQ hnext hneg ⟨s, hs⟩ x hx
  have haround : ∀ y ∈ Q, around S o y ∈ Q := by
    intro y hy
    rw [h.around_eq o (hQ y hy)]
    exact hneg _ (hnext _ (hnext _ hy))
  have hv : ∀ y ∈ Q, S.tri.nextAtVertex y ∈ Q := by
    cases o with
    | true => exact haround
    | false =>
      -- a permutation of a finite set
      intro y hy
      have hmaps : Set.MapsTo (around S false) (Q : Set HE) (Q : Set HE) := fun y hy => haround y hy
      have hinj : Set.InjOn (around S false) (Q : Set HE) := by
        intro a ha b hb hab
        rw [← h.around_not false (hQ a ha), hab, h.around_not false (hQ b hb)]
      have hsurj := Finset.surjOn_of_injOn_of_card_le (around S false) hmaps hinj (le_refl _)
      obtain ⟨z, hz, hzy⟩ := hsurj hy
      rw [← hzy]
      have : S.tri.nextAtVertex (around S false z) = z := h.around_not false (hQ z hz)
      rw [this]
      exact hz
  have key : ∀ z, Relation.ReflTransGen (fun a b => b = neg a ∨ b = S.tri.nextAtVertex a) s z → z ∈ Q := by
    intro z hz
    induction hz with
    | refl => exact hs
    | tail _ h2 ih =>
      rcases h2 with rfl | rfl
      · exact hneg _ ih
      · exact hv _ ih
  exact key x (hc.path s (hQ s hs) x hx)

/-- The relabellings are the isomorphisms. -/
theorem relabels_iff {S' : FlatTri T} (h : S.Shut) (h' : S'.Shut) (o o' : Bool) (σ : HE → HE) :
    Relabels S.tri S'.tri (o == o') σ ↔
      CellIso S.tri.size (advance S.tri o) S'.tri.size (advance S'.tri o') σ := by
  have hv : ∀ p, (∀ x < S.tri.size, σ x < S'.tri.size) → ((∀ x < S.tri.size,
      σ (S.tri.nextAtVertex x) = if (o == p) then S'.tri.nextAtVertex (σ x) else S'.tri.previousAtVertex (σ x)) ↔
      ∀ x < S.tri.size, σ (around S o x) = around S' p (σ x)) := by
    intro p hlt
    cases o with
    | true =>
      cases p with
      | true => exact Iff.rfl
      | false => exact Iff.rfl
    | false =>
      constructor
      · intro h1 x hx
        have h2 := h1 _ (h.around_lt false hx)
        have h3 : S.tri.nextAtVertex (around S false x) = x := h.around_not false hx
        rw [h3] at h2
        have h4 := hlt _ (h.around_lt false hx)
        cases p with
        | true =>
          simp only [Bool.false_beq, Bool.not_true, Bool.false_eq_true, if_false] at h2
          have h5 := h'.around_not false h4
          simp only [around, Bool.false_eq_true, if_false, Bool.not_false, if_true] at h5 h2 ⊢
          rw [h2, h5]
        | false =>
          simp only [Bool.false_beq, Bool.not_false, if_true] at h2
          have h5 := h'.around_not true h4
          simp only [around, Bool.false_eq_true, if_false, Bool.not_true, if_true] at h5 h2 ⊢
          rw [h2, h5]
      · intro h1 x hx
        have h2 := h1 _ (h.around_lt true hx)
        have h3 : around S false (around S true x) = x := h.around_not true hx
        rw [h3] at h2
        have h4 := hlt _ (h.around_lt true hx)
        cases p with
        | true =>
          simp only [Bool.false_beq, Bool.not_true, Bool.false_eq_true, if_false]
          have h5 := h'.around_not true h4
          simp only [around, Bool.false_eq_true, if_false, Bool.not_true, if_true] at h5 h2 ⊢
          rw [h2, h5]
        | false =>
          simp only [Bool.false_beq, Bool.not_false, if_true]
          have h5 := h'.around_not false h4
          simp only [around, Bool.false_eq_true, if_false, Bool.not_false, if_true] at h5 h2 ⊢
          rw [h2, h5]
  constructor
  · intro hr
    have hr' := (hv o' hr.lt).1 hr.vertex
    refine ⟨hr.lt, hr.inj, hr.surj, hr.neg, ?_⟩
    intro x hx
    have h1 := h.around_lt o hx
    have h2 := neg_lt_of_even h.even h1
    rw [h.advance_eq o hx, h'.advance_eq o' (hr.lt x hx), hr.neg _ (h.around_lt o h2), hr' _ h2, hr.neg _ h1, hr' x hx]
  · intro hr
    refine ⟨hr.lt, hr.inj, hr.surj, hr.neg, (hv o' hr.lt).2 ?_⟩
    intro x hx
    have h1 := (h.cells o).lt x hx
    have h2 := (h.cells o).lt _ h1
    rw [h.around_eq o hx, h'.around_eq o' (hr.lt x hx), hr.neg _ h2, hr.next _ h1, hr.next _ hx]

end FlatTri.Shut

end Verif
