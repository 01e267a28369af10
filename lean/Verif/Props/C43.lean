import Verif.Lemmas.Path
import Verif.Lemmas.FlatExamples

/-!
# C43: iterating a path visits each connection once

# C73: a path can be appended to itself

# C74: iterators which are equal to a third are equal
-/

namespace Verif.C43

open Verif Spec Path

theorem first_eq {p : List Saddle} (hp : p ≠ []) : Iter.first p = ⟨0, 0, false⟩ := by
  unfold Iter.first Iter.make
  rw [if_neg]
  intro h
  exact hp (List.length_eq_zero_iff.1 h.symm)

theorem last_eq (p : List Saddle) : Iter.last p = ⟨0, 0, true⟩ := if_pos rfl

/-- Advancing an iterator from the start: after `k` steps it is at the segment `k` modulo the number of segments, and it
has noticed how often it has been around. -/
theorem advance_correct {p : List Saddle} (hp : p ≠ []) (k : ℕ) :
    (Iter.next p)^[k] (Iter.first p) = ⟨k % p.length, k / p.length, false⟩ := by
  have h0 : 0 < p.length := List.length_pos_of_ne_nil hp
  induction k with
  | zero => rw [Function.iterate_zero, id, first_eq hp, Nat.zero_mod, Nat.zero_div]
  | succ k ih =>
    rw [Function.iterate_succ_apply', ih]
    unfold Iter.next
    simp only
    have h1 := Nat.mod_lt k h0
    have h2 := Nat.div_add_mod k p.length
    generalize hr : k % p.length = r at *
    generalize hq : k / p.length = q at *
    split_ifs with h
    · have : k + 1 = p.length * (q + 1) := by rw [Nat.mul_add, ← h2, Nat.mul_one]; omega
      rw [this, Nat.mul_mod_right, Nat.mul_div_cancel_left _ h0]
    · have : k + 1 = (r + 1) + p.length * q := by omega
      rw [this, Nat.add_mul_mod_self_left, Nat.add_mul_div_left _ _ h0, Nat.mod_eq_of_lt (by omega),
        Nat.div_eq_of_lt (by omega), Nat.zero_add]

/-- The iterator can be dereferenced after any number of steps, so one can walk around a closed path; after the last segment
comes the first. -/
theorem cyclic {p : List Saddle} (hp : p ≠ []) (k : ℕ) :
    ∃ h, ((Iter.next p)^[k] (Iter.first p)).get p = .ok (p[k % p.length]'h) := by
  refine ⟨Nat.mod_lt k (List.length_pos_of_ne_nil hp), ?_⟩
  rw [advance_correct hp]
  unfold Iter.get
  simp only
  rw [List.getElem?_eq_getElem (Nat.mod_lt k (List.length_pos_of_ne_nil hp))]

/-- Iterating from `begin()` to `end()` ends and visits the segments of the path in order. -/
theorem visit_correct (p : List Saddle) : ∃ N, ∀ fuel ≥ N, visit p fuel (Iter.first p) = some (.ok p) := by
  refine ⟨p.length + 1, fun fuel hfuel => ?_⟩
  by_cases hp : p = []
  · subst hp
    obtain ⟨m, rfl⟩ : ∃ m, fuel = m + 1 := ⟨fuel - 1, by simp at hfuel; omega⟩
    rfl
  have h0 : 0 < p.length := List.length_pos_of_ne_nil hp
  have key : ∀ (n fuel : ℕ), n ≤ p.length → n < fuel → (n = 0 → visit p fuel ⟨0, 1, false⟩ = some (.ok [])) ∧
      (0 < n → visit p fuel ⟨p.length - n, 0, false⟩ = some (.ok (p.drop (p.length - n)))) := by
    intro n
    induction n with
    | zero =>
      intro fuel _ hf
      refine ⟨fun _ => ?_, fun h => absurd h (lt_irrefl _)⟩
      obtain ⟨m, rfl⟩ : ∃ m, fuel = m + 1 := ⟨fuel - 1, by omega⟩
      unfold visit
      rw [last_eq]
      rfl
    | succ n ih =>
      intro fuel hn hf
      refine ⟨fun h => absurd h (by omega), fun _ => ?_⟩
      obtain ⟨m, rfl⟩ : ∃ m, fuel = m + 1 := ⟨fuel - 1, by omega⟩
      have hlt : p.length - (n + 1) < p.length := by omega
      unfold visit
      rw [last_eq]
      have h1 : (Iter.eq ⟨p.length - (n + 1), 0, false⟩ ⟨0, 0, true⟩) = false := rfl
      rw [h1, if_neg (by simp)]
      unfold Iter.get
      simp only
      rw [List.getElem?_eq_getElem hlt]
      simp only
      have hd : p.drop (p.length - (n + 1)) = p[p.length - (n + 1)] :: p.drop (p.length - n) := by
        rw [List.drop_eq_getElem_cons hlt]
        congr 2
        omega
      obtain ⟨i1, i2⟩ := ih m (by omega) (by omega)
      unfold Iter.next
      by_cases hn0 : n = 0
      · subst hn0
        rw [if_pos (by simp only; omega), i1 rfl, hd]
        simp
        rfl
      · rw [if_neg (by simp only; omega)]
        simp only
        rw [show p.length - (n + 1) + 1 = p.length - n by omega, i2 (by omega), hd]
        rfl
  rw [first_eq hp]
  have := (key p.length fuel le_rfl (by omega)).2 h0
  rw [Nat.sub_self, List.drop_zero] at this
  exact this

/-- Appending another path. -/
theorem append_correct (p q : List Saddle) : ∃ N, ∀ fuel ≥ N, append fuel p q = some (.ok (p ++ q)) := by
  obtain ⟨N, hN⟩ := visit_correct q
  refine ⟨N, fun fuel hf => ?_⟩
  unfold append
  rw [hN fuel hf]
  have key : ∀ (q p : List Saddle), q.foldl (fun p c => p ++ [c]) p = p ++ q := by
    intro q
    induction q with
    | nil => simp
    | cons c q ih => intro p; rw [List.foldl_cons, ih]; simp
  simp only [Option.map_some]
  show some (Except.ok _) = _
  simp only
  rw [key]

/-- Splicing another path in before the segment with index `k`, or at the end. The other path is empty afterwards. -/
theorem splice_correct (p q : List Saddle) {k : ℕ} (hk : k < p.length) :
    splice p ((Iter.next p)^[k] (Iter.first p)) q = (p.take k ++ q ++ p.drop k, []) ∧
    splice p (Iter.last p) q = (p ++ q, []) := by
  have hp : p ≠ [] := by rintro rfl; simp at hk
  constructor
  · rw [advance_correct hp, Nat.mod_eq_of_lt hk, Nat.div_eq_of_lt hk]
    unfold splice
    rw [last_eq]
    rfl
  · unfold splice
    rw [last_eq]
    simp [Iter.eq]

example : ([.ofHalfEdge 0, .ofHalfEdge 2] : List Saddle) ≠ [] ∧ 1 < ([.ofHalfEdge 0, .ofHalfEdge 2] : List Saddle).length :=
  ⟨by simp, by simp⟩

end Verif.C43

namespace Verif.C73

open Verif Spec Path

/-- Appending a path to itself repeats the path. -/
def AppendsSelf (capacity : ℕ) (p : List Saddle) : Prop :=
  ∃ N, ∀ fuel ≥ N, appendSelf fuel capacity p (Iter.first p) = some (.ok (p ++ p))

/-- The behaviour is undefined when a path that is not empty is appended to itself, whatever the capacity of its vector. -/
theorem appendSelf_undefined {p : List Saddle} (hp : p ≠ []) {capacity : ℕ} (hc : p.length ≤ capacity) :
    ∃ N, ∀ fuel ≥ N, appendSelf fuel capacity p (Iter.first p) = some (.error .undefined) := by
  have key : ∀ (n : ℕ) (p : List Saddle) (k : ℕ), k < p.length → capacity = p.length + n → ∀ fuel, n < fuel →
      appendSelf fuel capacity p ⟨k, 0, false⟩ = some (.error .undefined) := by
    intro n
    induction n with
    | zero =>
      intro p k hk hcap fuel hf
      obtain ⟨m, rfl⟩ : ∃ m, fuel = m + 1 := ⟨fuel - 1, by omega⟩
      unfold appendSelf
      rw [C43.last_eq, show (Iter.eq ⟨k, 0, false⟩ ⟨0, 0, true⟩) = false from rfl, if_neg (by simp)]
      unfold Iter.get
      simp only
      rw [List.getElem?_eq_getElem hk]
      simp only
      rw [if_pos (by omega)]
    | succ n ih =>
      intro p k hk hcap fuel hf
      obtain ⟨m, rfl⟩ : ∃ m, fuel = m + 1 := ⟨fuel - 1, by omega⟩
      unfold appendSelf
      rw [C43.last_eq, show (Iter.eq ⟨k, 0, false⟩ ⟨0, 0, true⟩) = false from rfl, if_neg (by simp)]
      unfold Iter.get
      simp only
      rw [List.getElem?_eq_getElem hk]
      simp only
      rw [if_neg (by omega)]
      unfold Iter.next
      simp only [List.length_append, List.length_cons, List.length_nil, zero_add]
      rw [if_neg (by omega)]
      exact ih (p ++ [p[k]]) (k + 1) (by simp; omega) (by simp; omega) m (by omega)
  refine ⟨capacity + 1, fun fuel hf => ?_⟩
  rw [C43.first_eq hp]
  exact key (capacity - p.length) p 0 (List.length_pos_of_ne_nil hp) (by omega) fuel (by omega)

/-- A path cannot be appended to itself. -/
theorem not_appendsSelf {p : List Saddle} (hp : p ≠ []) {capacity : ℕ} (hc : p.length ≤ capacity) :
    ¬ AppendsSelf capacity p := by
  rintro ⟨N, hN⟩
  obtain ⟨M, hM⟩ := appendSelf_undefined hp hc
  have h1 := hN (max N M) (le_max_left _ _)
  rw [hM (max N M) (le_max_right _ _)] at h1
  cases h1

/-- The empty path can be appended to itself. -/
theorem appendsSelf_partial (capacity : ℕ) : AppendsSelf capacity [] :=
  ⟨1, fun fuel hf => by obtain ⟨m, rfl⟩ : ∃ m, fuel = m + 1 := ⟨fuel - 1, by omega⟩; rfl⟩

example : [Saddle.ofHalfEdge 0] ≠ [] ∧ [Saddle.ofHalfEdge 0].length ≤ 1 := ⟨by simp, le_refl _⟩

end Verif.C73

namespace Verif.C74

open Verif Spec Path

/-- Iterators that are equal to the same iterator are equal. -/
def EqTransitive : Prop := ∀ i j k : Iter, i.eq j = true → j.eq k = true → i.eq k = true

/-- An iterator that has gone around once is equal to both `begin()` and `end()` but these are not equal. -/
theorem not_eqTransitive {p : List Saddle} (hp : p ≠ []) :
    let i := (Iter.next p)^[p.length] (Iter.first p)
    (Iter.first p).eq i = true ∧ i.eq (Iter.last p) = true ∧ (Iter.first p).eq (Iter.last p) = false := by
  have h0 : 0 < p.length := List.length_pos_of_ne_nil hp
  simp only
  rw [C43.advance_correct hp, C43.first_eq hp, C43.last_eq, Nat.mod_self, Nat.div_self h0]
  exact ⟨rfl, rfl, rfl⟩

theorem not_eqTransitive' : ¬ EqTransitive := by
  intro h
  obtain ⟨h1, h2, h3⟩ := not_eqTransitive (p := [.ofHalfEdge 0]) (by simp)
  have := h _ _ _ h1 h2
  rw [h3] at this
  cases this

/-- Before an iterator has gone around, equality says whether two iterators are at the same segment. -/
theorem eq_partial {p : List Saddle} (hp : p ≠ []) {k l : ℕ} (hk : k < p.length) (hl : l < p.length) :
    (((Iter.next p)^[k] (Iter.first p)).eq ((Iter.next p)^[l] (Iter.first p)) = true ↔ k = l) ∧
    ((Iter.next p)^[k] (Iter.first p)).eq (Iter.last p) = false := by
  rw [C43.advance_correct hp, C43.advance_correct hp, C43.last_eq, Nat.mod_eq_of_lt hk, Nat.mod_eq_of_lt hl,
    Nat.div_eq_of_lt hk, Nat.div_eq_of_lt hl]
  exact ⟨by simp [Iter.eq], rfl⟩

example : [Saddle.ofHalfEdge 0, .ofHalfEdge 2] ≠ [] ∧ 0 < [Saddle.ofHalfEdge 0, .ofHalfEdge 2].length ∧
    1 < [Saddle.ofHalfEdge 0, .ofHalfEdge 2].length := ⟨by simp, by simp, by simp⟩

end Verif.C74
