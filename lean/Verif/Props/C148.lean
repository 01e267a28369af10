import Verif.Model.Shortest
import Verif.Model.ByLength
import Verif.Props.C86
import Verif.Lemmas.CollapsedExamples

/-!
# C148: shortest edges

The theorems say that `shortest` returns the vector of an edge, and that no other edge is shorter; given a direction, the
edges that are orthogonal to the direction are ignored and the others are compared by the absolute value of their scalar
product with the direction.
-/

namespace Verif.C148

open Verif Spec Tri FlatTri Examples Vec

variable {T : Type} [CommRing T] [LinearOrder T] [IsStrictOrderedRing T]

/-- The fold that models `std::min_element` returns an element such that no other is less. -/
theorem fold_min {α : Type} {less : α → α → Bool} (irr : ∀ a, less a a = false)
    (tr : ∀ a b c, less a b = false → less b c = false → less a c = false)
    (asym : ∀ a b, less a b = true → less b a = false) (l : List α) (b : Option α) (hb : b = none → l ≠ []) :
    ∃ v, l.foldl (fun best v => match best with
        | none => some v
        | some w => if less v w then some v else some w) b = some v ∧ (v ∈ l ∨ b = some v) ∧
      ∀ w, (w ∈ l ∨ b = some w) → less w v = false := by
  induction l generalizing b with
  | nil =>
    cases b with
    | none => exact absurd rfl (hb rfl)
    | some v =>
      refine ⟨v, rfl, .inr rfl, ?_⟩
      rintro w (hw | hw)
      · cases hw
      · cases hw; exact irr _
  | cons x l ih =>
    rw [List.foldl_cons]
    cases b with
    | none =>
      obtain ⟨v, h1, h2, h3⟩ := ih (some x) (by simp)
      refine ⟨v, h1, .inl ?_, ?_⟩
      · rcases h2 with h2 | h2
        · exact List.mem_cons_of_mem _ h2
        · cases h2; exact List.mem_cons_self
      · rintro w (hw | hw)
        · rcases List.mem_cons.1 hw with rfl | hw
          · exact h3 _ (.inr rfl)
          · exact h3 _ (.inl hw)
        · cases hw
    | some y =>
      by_cases hxy : less x y = true
      · simp only [hxy, if_true]
        obtain ⟨v, h1, h2, h3⟩ := ih (some x) (by simp)
        refine ⟨v, h1, .inl ?_, ?_⟩
        · rcases h2 with h2 | h2
          · exact List.mem_cons_of_mem _ h2
          · cases h2; exact List.mem_cons_self
        · rintro w (hw | hw)
          · rcases List.mem_cons.1 hw with rfl | hw
            · exact h3 _ (.inr rfl)
            · exact h3 _ (.inl hw)
          · cases hw
            exact tr _ _ _ (asym _ _ hxy) (h3 _ (.inr rfl))
      · simp only [hxy]
        rw [Bool.not_eq_true] at hxy
        obtain ⟨v, h1, h2, h3⟩ := ih (some y) (by simp)
        refine ⟨v, h1, ?_, ?_⟩
        · rcases h2 with h2 | h2
          · exact .inl (List.mem_cons_of_mem _ h2)
          · exact .inr h2
        · rintro w (hw | hw)
          · rcases List.mem_cons.1 hw with rfl | hw
            · exact tr _ _ _ hxy (h3 _ (.inr rfl))
            · exact h3 _ (.inl hw)
          · exact h3 _ (.inr hw)

/-- Every half edge is one of the two half edges of an edge. -/
theorem edge_of {S : FlatTri T} (hs : S.Shut) {e : HE} (he : e < S.tri.size) :
    2 * (e / 2) < S.tri.size ∧ e / 2 < S.tri.size / 2 ∧ (S.vec e = S.vec (2 * (e / 2)) ∨ S.vec e = -S.vec (2 * (e / 2))) := by
  have hn := hs.neg_lt he
  rcases Nat.even_or_odd' e with ⟨k, rfl | rfl⟩
  · have : neg (2 * k) = 2 * k + 1 := by
      rw [neg_def]; split_ifs <;> omega
    rw [this] at hn
    have : 2 * k / 2 = k := by omega
    rw [this]
    exact ⟨he, by omega, .inl rfl⟩
  · have h2 : neg (2 * k + 1) = 2 * k := by
      rw [neg_def]; split_ifs <;> omega
    have : (2 * k + 1) / 2 = k := by omega
    rw [this]
    refine ⟨by omega, by omega, .inr ?_⟩
    have := hs.flat.odd (2 * k) (by omega)
    rwa [show neg (2 * k) = 2 * k + 1 by rw [neg_def]; split_ifs <;> omega] at this

/-- The vector returned by `shortest` is the vector of a half edge, and no half edge is shorter. -/
theorem shortest_correct {dbg : Bool} {S : FlatTri T} (h : Closed dbg S) (hne : S.tri.halfEdges ≠ []) :
    ∃ e ∈ S.tri.halfEdges, S.shortest = some (S.vec e) ∧
      ∀ e' ∈ S.tri.halfEdges, dot (S.vec e) (S.vec e) ≤ dot (S.vec e') (S.vec e') := by
  have hs := h.shut
  obtain ⟨e0, he0⟩ := List.exists_mem_of_ne_nil _ hne
  rw [mem_halfEdges] at he0
  obtain ⟨-, q2, -⟩ := edge_of hs he0
  obtain ⟨v, h1, h2, h3⟩ := fold_min (less := fun a b : Vec T => decide (dot a a < dot b b)) (by simp)
    (by simp only [decide_eq_false_iff_not, not_lt]; intro a b c h1 h2; exact h2.trans h1)
    (by simp only [decide_eq_true_eq, decide_eq_false_iff_not, not_lt]; intro a b h1; exact h1.le)
    ((List.range (S.tri.size / 2)).map fun i => S.vec (2 * i)) none (fun _ hc => by
      rw [List.map_eq_nil_iff, List.range_eq_nil] at hc; omega)
  obtain ⟨i, hi, rfl⟩ := List.mem_map.1 (h2.resolve_right (by simp))
  rw [List.mem_range] at hi
  refine ⟨2 * i, mem_halfEdges.2 (by omega), ?_, fun e' he' => ?_⟩
  · unfold FlatTri.shortest
    rw [← h1]
    congr 1
    funext best v
    cases best with
    | none => rfl
    | some w => simp
  · obtain ⟨-, c2, c3⟩ := edge_of hs (mem_halfEdges.1 he')
    have := h3 (S.vec (2 * (e' / 2))) (.inl (List.mem_map.2 ⟨_, List.mem_range.2 c2, rfl⟩))
    rw [decide_eq_false_iff_not, not_lt] at this
    rcases c3 with c3 | c3 <;> rw [c3]
    · exact this
    · simpa [dot] using this

theorem shorter_iff {d a b : Vec T} : shorterAlong d a b = true ↔ dot a d ≠ 0 ∧ (dot b d = 0 ∨ |dot a d| < |dot b d|) := by
  have e : ∀ x : T, (if x < 0 then -x else x) = |x| := by
    intro x
    split_ifs with hx
    · rw [abs_of_neg hx]
    · rw [abs_of_nonneg (not_lt.1 hx)]
  unfold shorterAlong
  simp only [e]
  by_cases h1 : dot a d = 0
  · simp [h1]
  · by_cases h2 : dot b d = 0 <;> simp [h1, h2]

/-- Given a direction, `shortest` returns the vector of a half edge that is not orthogonal to the direction, and no other such
half edge is shorter when it is projected to the direction. -/
theorem shortestAlong_correct {dbg : Bool} {S : FlatTri T} (h : Closed dbg S) (hne : S.tri.halfEdges ≠ []) {d : Vec T}
    (hd : d ≠ 0) :
    ∃ e ∈ S.tri.halfEdges, S.shortestAlong d = some (S.vec e) ∧ dot (S.vec e) d ≠ 0 ∧
      ∀ e' ∈ S.tri.halfEdges, dot (S.vec e') d ≠ 0 → |dot (S.vec e) d| ≤ |dot (S.vec e') d| := by
  have hs := h.shut
  obtain ⟨e0, he0⟩ := List.exists_mem_of_ne_nil _ hne
  rw [mem_halfEdges] at he0
  obtain ⟨-, q2, -⟩ := edge_of hs he0
  obtain ⟨v, h1, h2, h3⟩ := fold_min (less := fun a b : Vec T => shorterAlong d a b)
    (fun a => by rw [← Bool.not_eq_true, shorter_iff]; rintro ⟨k1, k2 | k2⟩; exacts [k1 k2, lt_irrefl _ k2])
    (fun a b c => by
      rw [← Bool.not_eq_true, ← Bool.not_eq_true, ← Bool.not_eq_true, shorter_iff, shorter_iff, shorter_iff]
      rintro k1 k2 ⟨k3, k4⟩
      have hb : dot b d ≠ 0 := fun hb => k1 ⟨k3, .inl hb⟩
      have hab : ¬ |dot a d| < |dot b d| := fun hb => k1 ⟨k3, .inr hb⟩
      refine k2 ⟨hb, k4.imp_right fun k4 => lt_of_le_of_lt (not_lt.1 hab) k4⟩)
    (fun a b => by
      rw [← Bool.not_eq_true, shorter_iff, shorter_iff]
      rintro ⟨k1, k2⟩ ⟨k3, k4⟩
      exact absurd (k2.resolve_left k3) (k4.resolve_left k1).not_gt)
    ((List.range (S.tri.size / 2)).map fun i => S.vec (2 * i)) none (fun _ hc => by
      rw [List.map_eq_nil_iff, List.range_eq_nil] at hc; omega)
  obtain ⟨i, hi, rfl⟩ := List.mem_map.1 (h2.resolve_right (by simp))
  rw [List.mem_range] at hi
  have low : ∀ e' < S.tri.size, dot (S.vec e') d ≠ 0 →
      dot (S.vec (2 * i)) d ≠ 0 ∧ |dot (S.vec (2 * i)) d| ≤ |dot (S.vec e') d| := by
    intro e' he' hz
    obtain ⟨-, c2, c3⟩ := edge_of hs he'
    have ab : |dot (S.vec e') d| = |dot (S.vec (2 * (e' / 2))) d| := by
      rcases c3 with c3 | c3 <;> rw [c3]
      rw [show dot (-S.vec (2 * (e' / 2))) d = -dot (S.vec (2 * (e' / 2))) d by simp only [dot, neg_x, neg_y]; ring, abs_neg]
    have hz' : dot (S.vec (2 * (e' / 2))) d ≠ 0 := by
      rw [← abs_ne_zero] at hz ⊢; rwa [← ab]
    have := h3 (S.vec (2 * (e' / 2))) (.inl (List.mem_map.2 ⟨_, List.mem_range.2 c2, rfl⟩))
    rw [← Bool.not_eq_true, shorter_iff] at this
    rw [ab]
    exact ⟨fun hc => this ⟨hz', .inl hc⟩, not_lt.1 fun hc => this ⟨hz', .inr hc⟩⟩
  refine ⟨2 * i, mem_halfEdges.2 (by omega), ?_, ?_, fun e' he' hz => (low e' (mem_halfEdges.1 he') hz).2⟩
  · unfold FlatTri.shortestAlong
    rw [← h1]
    congr 1
    funext best v
    cases best <;> rfl
  · by_cases h0 : dot (S.vec e0) d = 0
    · refine (low (S.tri.faces.fwd e0) (hs.quad he0).lt.2.1 fun hc => hd ?_).1
      have o := hs.flat.oriented e0 (hs.nb e0 he0)
      generalize S.vec e0 = u at *
      generalize S.vec (S.tri.faces.fwd e0) = w at *
      have hx : cross u w * d.x = 0 := by simp only [cross, dot] at *; linear_combination w.y * h0 - u.y * hc
      have hy : cross u w * d.y = 0 := by simp only [cross, dot] at *; linear_combination u.x * hc - w.x * h0
      exact Vec.ext ((mul_eq_zero.1 hx).resolve_left o.ne') ((mul_eq_zero.1 hy).resolve_left o.ne')
    · exact (low e0 he0 h0).1

/-! ### Concrete cases -/

/-- In the L, the first horizontal edge is orthogonal to the direction `(0, 3)` so the vector of another edge is returned. -/
example : Closed true flatEll ∧ flatEll.tri.halfEdges ≠ [] ∧ flatEll.shortestAlong ⟨0, 3⟩ = some ⟨0, 1⟩ :=
  ⟨flatEll_closed, by decide, by decide⟩

end Verif.C148
