import Verif.Lemmas.SaddleLog
import Verif.Lemmas.Path

set_option linter.unusedSectionVars false

/-!
# The pending moves of the search for saddle connections
-/

namespace Verif

open Vec Spec FlatTri

variable {T : Type} [CommRing T] [LinearOrder T] [IsStrictOrderedRing T]
variable {K : Type} [Field K] [LinearOrder K] [IsStrictOrderedRing K]

namespace SaddleSearch

/-- The effect of a move on a half edge and its end point. -/
def vmove (S : FlatTri T) : Move → HE × Vec T → HE × Vec T
  | .nextEdge, p => (S.tri.nextInFace p.1, p.2 + S.vec (S.tri.nextInFace p.1))
  | .otherFace, p => (neg p.1, p.2 - S.vec p.1)
  | .previousEdge, p => (S.tri.nextInFace (S.tri.nextInFace p.1), p.2 - S.vec p.1)

/-- The effect of a sequence of moves. -/
def walk (S : FlatTri T) (ms : List Move) (p : HE × Vec T) : HE × Vec T := ms.foldl (fun p m => vmove S m p) p

variable {S : FlatTri T}

theorem walk_cons (m : Move) (ms : List Move) (p : HE × Vec T) : walk S (m :: ms) p = walk S ms (vmove S m p) := rfl

theorem walk_append (ms ns : List Move) (p : HE × Vec T) : walk S (ms ++ ns) p = walk S ns (walk S ms p) := by
  unfold walk; rw [List.foldl_append]

theorem next_lt (h : S.Shut) {x : HE} (hx : x < S.tri.size) : S.tri.nextInFace x < S.tri.size := h.faces_lt hx

theorem next_three (h : S.Shut) (x : HE) : S.tri.nextInFace (S.tri.nextInFace (S.tri.nextInFace x)) = x := h.flat.coh.tri x

theorem sum_three (h : S.Shut) {x : HE} (hx : x < S.tri.size) :
    S.vec x + S.vec (S.tri.nextInFace x) + S.vec (S.tri.nextInFace (S.tri.nextInFace x)) = 0 := h.flat.closed x (h.nb x hx)

theorem vmove_lt (h : S.Shut) {p : HE × Vec T} (hp : p.1 < S.tri.size) (m : Move) : (vmove S m p).1 < S.tri.size := by
  cases m
  · exact next_lt h hp
  · exact next_lt h (next_lt h hp)
  · exact neg_lt_of_even h.even hp

theorem walk_lt (h : S.Shut) (ms : List Move) : ∀ {p : HE × Vec T}, p.1 < S.tri.size → (walk S ms p).1 < S.tri.size := by
  induction ms with
  | nil => exact fun hp => hp
  | cons m ms ih => exact fun hp => ih (vmove_lt h hp m)

theorem prev_eq (h : S.Shut) {x : HE} (hx : x < S.tri.size) : neg (S.tri.nextAtVertex x) = S.tri.nextInFace (S.tri.nextInFace x) := by
  rw [h.nextAtVertex hx, neg_neg']; rfl

/-- Where a half edge and its end point are. -/
def place (S : FlatTri T) (p : HE × (ℕ → ℤ)) : HE × Vec T := (p.1, S.chainVector p.2)

theorem place_applyMove (h : S.Shut) {p : HE × (ℕ → ℤ)} (hp : p.1 < S.tri.size) (m : Move) :
    place S (applyMove S m p) = vmove S m (place S p) := by
  have hn := neg_lt_of_even h.even hp
  cases m
  · unfold applyMove place vmove
    dsimp only
    rw [chainVector_bump h.even h.flat.odd _ (next_lt h hp)]
  · unfold applyMove place vmove
    dsimp only
    rw [chainVector_bump h.even h.flat.odd _ hn, h.flat.odd _ hp, prev_eq h hp, sub_eq_add_neg]
  · unfold applyMove place vmove
    dsimp only
    rw [chainVector_bump h.even h.flat.odd _ hn, h.flat.odd _ hp, sub_eq_add_neg]

theorem next_next (h : S.Shut) {p : HE × Vec T} (hp : p.1 < S.tri.size) :
    vmove S .nextEdge (vmove S .nextEdge p) = vmove S .previousEdge p := by
  have := sum_three h hp
  unfold vmove
  dsimp only
  refine Prod.ext rfl ?_
  dsimp only
  rw [show S.vec p.1 = -(S.vec (S.tri.nextInFace p.1) + S.vec (S.tri.nextInFace (S.tri.nextInFace p.1))) by
    rw [← add_eq_zero_iff_eq_neg, ← this]; abel]
  abel

theorem next_prev' (h : S.Shut) (p : HE × Vec T) :
    vmove S .previousEdge (vmove S .nextEdge p) = p := by
  unfold vmove
  dsimp only
  refine Prod.ext (next_three h p.1) ?_
  dsimp only
  abel

theorem prev_next' (h : S.Shut) {p : HE × Vec T} (hp : p.1 < S.tri.size) :
    vmove S .nextEdge (vmove S .previousEdge p) = p := by
  rw [← next_next h hp, next_next h (vmove_lt h hp _)]
  exact next_prev' h p

theorem prev_prev' (h : S.Shut) {p : HE × Vec T} (hp : p.1 < S.tri.size) :
    vmove S .previousEdge (vmove S .previousEdge p) = vmove S .nextEdge p := by
  rw [← next_next h (vmove_lt h hp _), prev_next' h hp]

theorem other_other (h : S.Shut) {p : HE × Vec T} (hp : p.1 < S.tri.size) :
    vmove S .otherFace (vmove S .otherFace p) = p := by
  unfold vmove
  dsimp only
  refine Prod.ext (neg_neg' _) ?_
  dsimp only
  rw [h.flat.odd _ hp]
  abel

theorem next_other (p : HE × Vec T) : vmove S .otherFace (vmove S .nextEdge p) = (neg (S.tri.nextInFace p.1), p.2) := by
  unfold vmove
  dsimp only
  refine Prod.ext rfl ?_
  dsimp only
  abel

theorem other_prev (h : S.Shut) {p : HE × Vec T} (hp : p.1 < S.tri.size) :
    vmove S .previousEdge (vmove S .otherFace p) = (S.tri.nextInFace (S.tri.nextInFace (neg p.1)), p.2) := by
  unfold vmove
  dsimp only
  refine Prod.ext rfl ?_
  dsimp only
  rw [h.flat.odd _ hp]
  abel

theorem other_next (h : S.Shut) {p : HE × Vec T} (hp : p.1 < S.tri.size) :
    vmove S .nextEdge (vmove S .otherFace p) = vmove S .previousEdge (S.tri.nextInFace (S.tri.nextInFace (neg p.1)), p.2) := by
  rw [← other_prev h hp, prev_prev' h (vmove_lt h hp _)]

/-- How many more iterations the loop takes at most. -/
def need : List Move → ℕ
  | [] => 0
  | [_] => 0
  | m :: ms => 2 * (ms.length + 1) + (if m = .previousEdge then 1 else 0) - 3

theorem need_cons (m : Move) (ms : List Move) : need (m :: ms) ≤ 2 * ms.length := by
  unfold need
  cases ms
  · simp
  · dsimp only; split_ifs <;> simp only [List.length_cons] <;> omega

theorem need_next (m : Move) (hm : m ≠ .previousEdge) (ms : List Move) : need (m :: ms) ≤ 2 * ms.length - 1 := by
  unfold need
  cases ms
  · simp
  · dsimp only; rw [if_neg hm]; simp only [List.length_cons]; omega

theorem need_le (ms : List Move) : need ms ≤ 2 * ms.length - 2 := by
  cases ms with
  | nil => simp [need]
  | cons m ms => have := need_cons m ms; simp only [List.length_cons]; omega

theorem place_loop (h : S.Shut) : ∀ (fuel : ℕ) (ms : List Move) (p : HE × (ℕ → ℤ)), p.1 < S.tri.size → need ms ≤ fuel →
    place S (applyMovesLoop S fuel ms p) = walk S ms (place S p) := by
  intro fuel
  induction fuel with
  | zero =>
    intro ms p hp hn
    rcases ms with _ | ⟨m, _ | ⟨n, ms⟩⟩
    · unfold applyMovesLoop; rfl
    · unfold applyMovesLoop; exact place_applyMove h hp m
    · exfalso
      unfold need at hn
      simp only [List.length_cons] at hn
      omega
  | succ fuel ih =>
    intro ms p hp hn
    rcases ms with _ | ⟨m, _ | ⟨n, ms⟩⟩
    · unfold applyMovesLoop; rfl
    · unfold applyMovesLoop; exact place_applyMove h hp m
    · have hnp := neg_lt_of_even h.even hp
      have hpp : (place S p).1 < S.tri.size := hp
      have hm : need (m :: n :: ms) = 2 * (ms.length + 1 + 1) + (if m = .previousEdge then 1 else 0) - 3 := by
        unfold need; simp
      have n1 := fun m => need_cons m ms
      have n2 := need_next .nextEdge (by decide) ms
      have n3 := need_le ms
      have n4 := need_next .nextEdge (by decide) (.otherFace :: ms)
      simp only [List.length_cons] at n4
      unfold applyMovesLoop
      rcases m with _ | _ | _ <;> rcases n with _ | _ | _ <;> simp only [reduceCtorEq, if_true, if_false] at hm ⊢ <;>
        simp only [walk_cons]
      · rw [ih _ _ hp (by have := n1 .previousEdge; omega), walk_cons, next_next h hpp]
      · rw [ih _ _ hp (by omega), next_prev' h]
      · rw [ih _ _ (neg_lt_of_even h.even (next_lt h hp)) (by omega), next_other]
        rfl
      · rw [ih _ _ hp (by omega), prev_next' h hpp]
      · rw [ih _ _ hp (by omega), walk_cons, prev_prev' h hpp]
      · rw [ih _ _ (next_lt h hp) (by omega), place_applyMove h hp, walk_cons, walk_cons, next_next h hpp]
      · rw [ih _ _ (by dsimp only; rw [prev_eq h hnp]; exact next_lt h (next_lt h hnp)) (by have := n1 .previousEdge; omega),
          walk_cons, other_next h hpp]
        unfold place
        rw [prev_eq h hnp]
      · rw [ih _ _ (by dsimp only; rw [prev_eq h hnp]; exact next_lt h (next_lt h hnp)) (by omega), other_prev h hpp]
        unfold place
        rw [prev_eq h hnp]
      · rw [ih _ _ hp (by omega), other_other h hpp]

/-- Where the search is after all the pending moves have been made. -/
def view (S : FlatTri T) (m : Machine T) : HE × Vec T := walk S m.moves (m.edge, S.chainVector m.edgeEnd)

/-- Making the pending moves. -/
theorem applyMoves_spec (h : S.Shut) {m : Machine T} (hm : m.edge < S.tri.size) :
    (applyMoves S m).edge = (view S m).1 ∧ S.chainVector (applyMoves S m).edgeEnd = (view S m).2 ∧ (applyMoves S m).moves = [] ∧
    (applyMoves S m).edge < S.tri.size := by
  have key := place_loop h (2 * m.moves.length) m.moves (m.edge, m.edgeEnd) hm ((need_le _).trans (by omega))
  refine ⟨congrArg Prod.fst key, congrArg Prod.snd key, rfl, ?_⟩
  rw [show (applyMoves S m).edge = (view S m).1 from congrArg Prod.fst key]
  exact walk_lt h _ hm

end SaddleSearch

end Verif
