import Verif.Lemmas.Chain

/-!
# Iteration over chains
-/

set_option linter.unusedSectionVars false

namespace Verif.Chain

variable {T : Type*} [CommRing T] [LinearOrder T] [IsStrictOrderedRing T]
variable {K : Type*} [Field K] [LinearOrder K] [IsStrictOrderedRing K]

theorem all_coefficients {n : ℕ} {c d : ChainObj T K} :
    (∀ e < 2 * n, coefficient c e = coefficient d e) ↔ ∀ i < n, c.coefficients i = d.coefficients i := by
  constructor
  · intro h i hi
    have := h (2 * i) (by omega)
    unfold coefficient at this
    have h2 : 2 * i / 2 = i := by omega
    rwa [h2, if_pos rfl, if_pos rfl] at this
  · intro h e he
    unfold coefficient
    rw [h (e / 2) (by omega)]

theorem findNext_spec (S : ChainSurface T K) (c : ChainObj T K) (fuel pos : ℕ) (hp : pos ≤ S.size)
    (hf : S.size < fuel + pos) :
    pos ≤ findNext S c fuel pos ∧ findNext S c fuel pos ≤ S.size ∧
      (∀ i, pos ≤ i → i < findNext S c fuel pos → c.coefficients i = 0) ∧
      (findNext S c fuel pos < S.size → c.coefficients (findNext S c fuel pos) ≠ 0) := by
  induction fuel generalizing pos with
  | zero => omega
  | succ fuel ih =>
    unfold findNext
    split_ifs with h
    · obtain ⟨h1, h2, h3, h4⟩ := ih (pos + 1) (by omega) (by omega)
      refine ⟨by omega, h2, fun i hi hi' => ?_, h4⟩
      rcases Nat.eq_or_lt_of_le hi with hi | hi
      · rw [← hi]; exact h.2
      · exact h3 i hi hi'
    · exact ⟨le_refl _, hp, fun i hi hi' => absurd hi' (by omega), fun h' h0 => h ⟨h', h0⟩⟩

theorem iterate_spec (S : ChainSurface T K) (c : ChainObj T K) (fuel pos : ℕ) (hp : pos ≤ S.size)
    (hf : S.size < fuel + pos) :
    iterate S c fuel pos = ((List.range' pos (S.size - pos)).filter fun i => decide (c.coefficients i ≠ 0)).map
      fun i => (i, c.coefficients i) := by
  induction fuel generalizing pos with
  | zero => omega
  | succ fuel ih =>
    unfold iterate
    obtain ⟨h1, h2, h3, h4⟩ := findNext_spec S c (S.size + 1) pos hp (by omega)
    generalize findNext S c (S.size + 1) pos = q at *
    have hsplit : List.range' pos (S.size - pos) = List.range' pos (q - pos) ++ List.range' q (S.size - q) := by
      have := List.range'_append_1 (s := pos) (m := q - pos) (n := S.size - q)
      rw [show pos + (q - pos) = q by omega] at this
      rw [this]
      congr 1
      omega
    have hzero : (List.range' pos (q - pos)).filter (fun i => decide (c.coefficients i ≠ 0)) = [] := by
      rw [List.filter_eq_nil_iff]
      intro i hi
      rw [List.mem_range'_1] at hi
      simp [h3 i hi.1 (by omega)]
    rw [hsplit, List.filter_append, hzero, List.nil_append]
    simp only
    split_ifs with hq
    · rw [hq, Nat.sub_self]; rfl
    · obtain ⟨n, hn⟩ : ∃ n, S.size - q = n + 1 := ⟨S.size - q - 1, by omega⟩
      have hn' : n = S.size - (q + 1) := by omega
      rw [hn, List.range'_succ, List.filter_cons_of_pos (by simpa using h4 (by omega)), List.map_cons,
        ih (q + 1) (by omega) (by omega), hn']

end Verif.Chain
