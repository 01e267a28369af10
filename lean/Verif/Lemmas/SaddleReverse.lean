import Verif.Lemmas.SaddleSector

/-!
The reverse of a saddle connection.
-/

set_option linter.unusedSectionVars false

namespace Verif.FlatTri

open Vec Spec

variable {T : Type} [CommRing T] [LinearOrder T] [IsStrictOrderedRing T] {S : FlatTri T}

/-- The vectors of a triangle sum to zero. -/
theorem Shut.third (h : S.Shut) {e : HE} (he : e < S.tri.size) :
    S.vec (S.tri.nextInFace (S.tri.nextInFace e)) = -(S.vec e + S.vec (S.tri.nextInFace e)) :=
  eq_neg_of_add_eq_zero_right (h.flat.closed e (h.nb e he))

theorem Shut.hits_reverse (h : S.Shut) {v : Vec T} {x : HE} {q : Vec T} {t : HE} (hit : Hits S v x q t) (hx : x < S.tri.size)
    {e : HE} (h1 : cross v (q - S.vec x) < 0) (h2 : 0 < cross v q) (hb : Hits S (-v) (neg x) (q - S.vec x - v) e) :
    IsSaddleConnection S t (-v) e := by
  induction hit with
  | @here x q hv =>
    have ht := h.third (h.neg_lt hx)
    have h3 := h.next3 (neg x)
    have ho := h.flat.odd x hx
    have e1 : S.vec (S.tri.nextInFace (S.tri.nextInFace (neg x))) = q - v := by
      rw [ht, hv, apex, ho]; abel
    have e2 : S.tri.nextInFace (S.tri.nextInFace (S.tri.nextInFace (neg x))) = neg x := h3
    have e3 : q - v + S.vec (neg x) = q - S.vec x - v := by rw [ho]; abel
    refine .crossing ?_ ?_ ?_
    · rw [e1]
      unfold cross at *
      simp only [Vec.sub_x, Vec.sub_y, Vec.neg_x, Vec.neg_y] at *
      linarith
    · rw [e1, e2, e3]
      unfold cross at *
      simp only [Vec.sub_x, Vec.sub_y, Vec.neg_x, Vec.neg_y] at *
      linarith
    · rw [e1, e2, e3]
      exact hb
  | @right x q t hr hit ih =>
    have hn := h.neg_lt hx
    have hnn : S.tri.nextInFace (neg x) < S.tri.size := h.next_lt hn
    have ht := h.third hn
    have ho := h.flat.odd x hx
    have ho' := h.flat.odd _ hnn
    refine ih hnn ?_ hr ?_
    · rw [show apex S x q - S.vec (S.tri.nextInFace (neg x)) = q - S.vec x by unfold apex; abel]
      exact h1
    · rw [show apex S x q - S.vec (S.tri.nextInFace (neg x)) = q - S.vec x by unfold apex; abel]
      refine .left ?_ ?_
      · unfold apex
        rw [neg_neg', ho', ht, ho]
        unfold cross at *
        simp only [Vec.sub_x, Vec.sub_y, Vec.neg_x, Vec.neg_y, Vec.add_x, Vec.add_y] at *
        linarith
      · rw [neg_neg']
        have e2 : S.tri.nextInFace (S.tri.nextInFace (S.tri.nextInFace (neg x))) = neg x := h.next3 (neg x)
        rw [e2]
        exact hb
  | @left x q t hr hit ih =>
    have hn := h.neg_lt hx
    have hnn : S.tri.nextInFace (S.tri.nextInFace (neg x)) < S.tri.size := h.next_lt (h.next_lt hn)
    have ht := h.third hn
    have ho := h.flat.odd x hx
    have ho' := h.flat.odd _ hnn
    have e2 : S.tri.nextInFace (S.tri.nextInFace (S.tri.nextInFace (neg x))) = neg x := h.next3 (neg x)
    have e1 : q - S.vec (S.tri.nextInFace (S.tri.nextInFace (neg x))) = apex S x q := by
      rw [ht, apex, ho]; abel
    refine ih hnn (by rw [e1]; exact hr) h2 ?_
    rw [e1]
    have e4 : apex S (neg (S.tri.nextInFace (S.tri.nextInFace (neg x)))) (apex S x q - v) = q - S.vec x - v := by
      rw [← e1]
      unfold apex
      rw [neg_neg', ho', e2, ho]
      abel
    refine .right ?_ ?_
    · rw [e4]
      unfold cross at *
      simp only [Vec.sub_x, Vec.sub_y, Vec.neg_x, Vec.neg_y] at *
      linarith
    · rw [e4, neg_neg', e2]
      exact hb

/-- The reverse of a saddle connection is a saddle connection. -/
theorem Shut.reverse (h : S.Shut) {e : HE} (he : e < S.tri.size) {v : Vec T} {t : HE} (hs : IsSaddleConnection S e v t) :
    IsSaddleConnection S t (-v) e := by
  rcases hs with ⟨rfl, rfl⟩ | ⟨h1, h2, hit⟩
  · exact .halfEdge (h.flat.odd e he).symm (neg_neg' e).symm
  · have hx : S.tri.nextInFace e < S.tri.size := h.next_lt he
    have ho := h.flat.odd _ hx
    have ht := h.third he
    have e1 : S.vec e + S.vec (S.tri.nextInFace e) - S.vec (S.tri.nextInFace e) = S.vec e := by abel
    refine h.hits_reverse hit hx ?_ h2 ?_
    · rw [e1]
      unfold cross at *
      linarith
    · rw [e1]
      have : e = S.tri.nextInFace (S.tri.nextInFace (neg (neg (S.tri.nextInFace e)))) := by
        rw [neg_neg']
        exact (h.next3 e).symm
      conv => arg 5; rw [this]
      refine .here ?_
      unfold apex
      rw [neg_neg', ho, ht]
      abel

end Verif.FlatTri
