import Verif.Props.C23
import Verif.Lemmas.ChainIter

/-!
# C24: Chains form the free abelian group on the edges
-/

namespace Verif.C24

open Chain

variable {T : Type*} [CommRing T] [LinearOrder T] [IsStrictOrderedRing T]
variable {K : Type*} [Field K] [LinearOrder K] [IsStrictOrderedRing K]

/-- After any history of operations, the coefficients of the chains are those of the elements of the free abelian group
that result from the same history; a history is only undefined if it refers to chains or half edges that do not exist. -/
theorem coefficients_correct (κ : Cost) (S : ChainSurface T K) (ops : List Op) :
    match specRun S.size ops [] with
    | none => run κ S ops (Heap.init : Heap T K) = .error .undefined
    | some l => ∃ h, run κ S ops Heap.init = .ok h ∧ h.n = l.length ∧ ∀ i c, l[i]? = some c →
        ∀ e, coefficient (h.get i) e = if e % 2 = 0 then c (e / 2) else -c (e / 2) := by
  have hr : Rep (Heap.init : Heap T K) [] := ⟨rfl, fun i c h => by simp at h⟩
  have := run_rep κ S ops hr
  cases hl : specRun S.size ops [] with
  | none => rwa [hl] at this
  | some l =>
    rw [hl] at this
    obtain ⟨h, h1, h2⟩ := this
    refine ⟨h, h1, h2.1, fun i c hc e => ?_⟩
    unfold coefficient
    rw [h2.2 i c hc]
    by_cases he : e % 2 = 0
    · rw [if_pos he, if_pos (by omega)]
    · rw [if_neg he, if_neg (by omega)]

/-- Opposite half edges have opposite coefficients. -/
theorem coefficient_neg (c : ChainObj T K) (e : ℕ) : coefficient c (neg e) = -coefficient c e := by
  unfold coefficient
  rw [neg_div]
  have hm := neg_mod e
  have hd := neg_div e
  by_cases he : e = 2 * (e / 2)
  · rw [if_pos he, if_neg (by omega)]
  · rw [if_neg he, if_pos (by omega), neg_neg]

/-- A chain is false exactly when all coefficients are zero. -/
theorem bool_correct (S : ChainSurface T K) (c : ChainObj T K) :
    nonzero S c = false ↔ ∀ e < 2 * S.size, coefficient c e = 0 := by
  have := all_coefficients (n := S.size) (c := c) (d := ⟨fun _ => 0, .empty, .empty⟩)
  simp only [show ∀ e, coefficient (⟨fun _ => 0, .empty, .empty⟩ : ChainObj T K) e = 0 from fun e => by
    unfold coefficient; simp] at this
  rw [this]
  simp [nonzero]

/-- Chains are equal exactly when all coefficients agree. -/
theorem eq_correct (S : ChainSurface T K) (c d : ChainObj T K) :
    beq S c d = true ↔ ∀ e < 2 * S.size, coefficient c e = coefficient d e := by
  rw [all_coefficients]
  simp [beq, nonzero, sub_eq_zero]

/-- Equal chains have equal hashes. -/
theorem hash_correct (S : ChainSurface T K) (hS : 0 < S.size) (combine : ℕ → ℕ → ℕ) {c d : ChainObj T K}
    (h : beq S c d = true) : Chain.hash S combine c = Chain.hash S combine d := by
  rw [eq_correct, all_coefficients] at h
  unfold Chain.hash
  rw [h 0 hS]
  apply List.foldl_ext
  intro a i hi
  rw [List.mem_range] at hi
  rw [h (i + 1) (by omega)]

/-- Iterating over a chain reports exactly the edges with a non-zero coefficient, in order, once each. -/
theorem iteration_correct (S : ChainSurface T K) (c : ChainObj T K) :
    iterate S c (S.size + 1) 0 = ((List.range S.size).filter fun i => decide (coefficient c (2 * i) ≠ 0)).map
      fun i => (i, coefficient c (2 * i)) := by
  rw [iterate_spec S c _ 0 (Nat.zero_le _) (by omega), Nat.sub_zero, ← List.range_eq_range']
  have : ∀ i, coefficient c (2 * i) = c.coefficients i := by
    intro i
    unfold coefficient
    have h2 : 2 * i / 2 = i := by omega
    rw [h2, if_pos rfl]
  simp only [this]

example : iterate C23.torus (⟨bump (bump (fun _ => 0) 0) 5, .empty, .empty⟩ : ChainObj ℤ ℚ) 4 0 = [(0, 1), (2, -1)] := by
  decide

example : beq C23.torus (⟨bump (bump (fun _ => 0) 0) 5, .empty, .empty⟩ : ChainObj ℤ ℚ)
    ⟨bump (bump (fun _ => 0) 5) 0, .of 0, .empty⟩ = true := by decide

end Verif.C24
