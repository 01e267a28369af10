import Verif.Lemmas.IndexedSet

/-!
# C27: Half edge and edge sets behave like sets

And C65: equality of edge sets, C66: comparing a set does not disturb an iteration over it. Both are not the case.
-/

namespace Verif.C27

open IndexedSet

/-- After any history of operations on any number of sets, all queries have the answers they have for the finite sets that
result from the same history. A history is only undefined if it refers to sets which do not exist. -/
theorem set_correct (ops : List Op) :
    match specRun ops [] with
    | none => run ops [] = none
    | some m => ∃ l, run ops [] = some l ∧ l.length = m.length ∧ ∀ (i : ℕ) s a, l[i]? = some s → m[i]? = some a →
        (∀ t, s.contains t = decide (t ∈ a)) ∧ s.count = a.card ∧ s.isEmpty = decide (a = ∅) ∧
        (∀ j t b, l[j]? = some t → m[j]? = some b → IndexedSet.eq l i j = some (decide (a = b)) ∧
          IndexedSet.disjoint l i j = some (decide (Disjoint a b))) := by
  rcases run_spec ops (.nil : Reps [] []) with ⟨h1, h2⟩ | ⟨l, m, h1, h2, h3⟩
  · rw [h2]; exact h1
  rw [h2]
  refine ⟨l, h1, h3.length_eq, fun i s a hs ha => ?_⟩
  have hr : Rep s a := by
    rcases h3.get i with ⟨h, _⟩ | ⟨s', a', h4, h5, h6⟩
    · rw [h] at hs; cases hs
    · rw [hs] at h4; rw [ha] at h5; cases h4; cases h5; exact h6
  refine ⟨hr.contains, hr.count, hr.begin_eq_end, fun j t b ht hb => ?_⟩
  have hi := (List.getElem?_eq_some_iff.1 ha).1
  have hj := (List.getElem?_eq_some_iff.1 hb).1
  rcases h3.align i j with ⟨_, h⟩ | ⟨l', h4, h5, _, h6⟩
  · exact absurd ⟨hi, hj⟩ h
  obtain ⟨s', hs', hsr⟩ : ∃ s', l'[i]? = some s' ∧ Rep s' a := by
    rcases h5.get i with ⟨_, h⟩ | ⟨s', a', h7, h8, h9⟩
    · rw [ha] at h; cases h
    · rw [ha] at h8; cases h8; exact ⟨s', h7, h9⟩
  obtain ⟨t', ht', htr⟩ : ∃ t', l'[j]? = some t' ∧ Rep t' b := by
    rcases h5.get j with ⟨_, h⟩ | ⟨s', a', h7, h8, h9⟩
    · rw [hb] at h; cases h
    · rw [hb] at h8; cases h8; exact ⟨s', h7, h9⟩
  rw [hs', ht'] at h6
  have h6 : s'.size = t'.size := by simpa using h6
  constructor
  · simp only [IndexedSet.eq, h4, hs', ht', Option.bind_eq_bind, Option.bind_some, Option.pure_def, hsr.bitsEq htr h6]
  · simp only [IndexedSet.disjoint, h4, hs', ht', Option.bind_eq_bind, Option.bind_some, Option.pure_def,
      hsr.intersects htr, decide_not, Bool.not_not]

/-- After any history, iterating over a set reports its elements once each, in increasing order, and ends. -/
theorem iteration_correct {ops : List Op} {m : List (Finset ℕ)} (hm : specRun ops [] = some m) :
    ∃ l, run ops [] = some l ∧ ∀ (i : ℕ) s a, l[i]? = some s → m[i]? = some a → ∃ N, ∀ fuel ≥ N,
      ∃ r, iterate fuel s = some r ∧ r.Pairwise (· < ·) ∧ ∀ t, t ∈ r ↔ t ∈ a := by
  rcases run_spec ops (.nil : Reps [] []) with ⟨_, h2⟩ | ⟨l, m', h1, h2, h3⟩
  · rw [hm] at h2; cases h2
  rw [hm] at h2
  cases h2
  refine ⟨l, h1, fun i s a hs ha => ?_⟩
  have hr : Rep s a := by
    rcases h3.get i with ⟨h, _⟩ | ⟨s', a', h4, h5, h6⟩
    · rw [h] at hs; cases hs
    · rw [hs] at h4; rw [ha] at h5; cases h4; cases h5; exact h6
  refine ⟨s.size + 1, fun fuel hf => ?_⟩
  obtain ⟨r, h4, h5, h6⟩ := hr.loop fuel 0 (by omega) (by omega)
  exact ⟨r, h4, h5, fun t => by rw [h6]; simp⟩

example : specRun [.ofItems [3, 1, 3], .new, .insert 1 7, .eq 0 1, .erase 1 7, .insert 1 1, .insert 1 3, .copy 0] [] =
    some [{1, 3}, {1, 3}, {1, 3}] := by decide

example : ∃ l, run [.ofItems [3, 1, 3], .new, .insert 1 7, .eq 0 1, .erase 1 7, .insert 1 1, .insert 1 3, .copy 0] [] =
    some l ∧ IndexedSet.eq l 0 1 = some true := ⟨_, rfl, by decide⟩

end Verif.C27

namespace Verif.C65

open IndexedSet

/-- The full claim: `==` of `EdgeSet`s compares the sets.

This is false, see `not_edgeSet_eq`. -/
def EdgeSetEq : Prop := ∀ (ops : List Op) (l : List IndexedSet) (m : List (Finset ℕ)), run ops [] = some l →
  specRun ops [] = some m → ∀ i j a b, m[i]? = some a → m[j]? = some b → edgeSetEq l i j = some (decide (a = b))

/-- Two sets with the same element are not equal. -/
theorem not_edgeSet_eq : ¬ EdgeSetEq := by
  intro h
  have := h [.ofItems [0], .ofItems [0]] _ _ rfl rfl 0 1 _ _ rfl rfl
  revert this
  decide

/-- An edge set is equal to itself, and sets which are equal have the same elements. Missing: sets with the same elements
are equal. -/
theorem edgeSet_eq_partial {ops : List Op} {l : List IndexedSet} {m : List (Finset ℕ)} (hl : run ops [] = some l)
    (hm : specRun ops [] = some m) {i j : ℕ} {a b : Finset ℕ} (ha : m[i]? = some a) (hb : m[j]? = some b) :
    edgeSetEq l i i = some true ∧ (edgeSetEq l i j = some true → a = b) := by
  rcases run_spec ops (.nil : Reps [] []) with ⟨_, h2⟩ | ⟨l', m', h1, h2, h3⟩
  · rw [hm] at h2; cases h2
  rw [hm] at h2
  rw [hl] at h1
  cases h1
  cases h2
  rcases h3.get i with ⟨_, h⟩ | ⟨s, a', h4, h5, h6⟩
  · rw [ha] at h; cases h
  refine ⟨by simp [edgeSetEq, h4], fun h => ?_⟩
  have : i = j := by
    unfold edgeSetEq at h
    rw [h4] at h
    cases h7 : l[j]? with
    | none => rw [h7] at h; simp at h
    | some t => rw [h7] at h; simpa using h
  subst this
  rw [ha] at hb
  exact Option.some.inj hb

end Verif.C65

namespace Verif.C66

open IndexedSet

/-- The effect that `s == t` has on `s`. -/
def compared (t s : IndexedSet) : IndexedSet := s.resize (max s.size t.size)

/-- The full claim: comparing a set with another one inside a loop over its elements does not change what the loop
reports.

This is false, see `not_undisturbed`. -/
def Undisturbed : Prop := ∀ items items' : List ℕ, ∃ N, ∀ fuel ≥ N,
  loop (compared (ofItems items')) (ofItems items).end fuel (ofItems items).begin (ofItems items) =
    iterate fuel (ofItems items)

theorem runs_on (t : IndexedSet) (fuel pos : ℕ) (hp : pos ≠ 1) (s : IndexedSet) (hs : ∀ p, s.findFrom p ≠ 1)
    (hc : compared t s = s) : loop (compared t) 1 fuel pos s = none := by
  induction fuel generalizing pos with
  | zero => rfl
  | succ fuel ih =>
    unfold loop
    rw [if_neg hp]
    simp only [hc, ih _ (hs _)]
    rfl

/-- While iterating over {0}, a comparison with {5} makes the loop run past its end, forever. -/
theorem not_undisturbed : ¬ Undisturbed := by
  intro h
  obtain ⟨N, hN⟩ := h [0] [5]
  have h1 := hN (max N 2 + 1) (by omega)
  have hi : iterate (max N 2 + 1) (ofItems [0]) = some [0] := by
    obtain ⟨k, hk⟩ : ∃ k, max N 2 + 1 = k + 2 := ⟨max N 2 - 1, by omega⟩
    rw [hk]
    rfl
  rw [hi] at h1
  have hs : ∀ p, (compared (ofItems [5]) (ofItems [0])).findFrom p ≠ 1 := by
    intro p
    rcases p with _ | p
    · decide
    · have : ((List.range 6).find? fun i => decide (p + 1 ≤ i) &&
          (compared (ofItems [5]) (ofItems [0])).bits i) = none := by
        rw [List.find?_eq_none]
        intro i hi
        rw [List.mem_range] at hi
        rcases i with _ | i
        · simp
        · have : (compared (ofItems [5]) (ofItems [0])).bits (i + 1) = false := by
            simp [compared, IndexedSet.resize, ofItems, IndexedSet.insert, empty, Function.update]
          simp [this]
      unfold findFrom
      rw [show (compared (ofItems [5]) (ofItems [0])).size = 6 from by decide, this]
      decide
  have h0 : loop (compared (ofItems [5])) 1 (max N 2 + 1) 0 (ofItems [0]) = none := by
    unfold loop
    rw [if_neg (by decide)]
    simp only
    rw [runs_on _ _ _ (hs _) _ hs (by simp [compared, IndexedSet.resize])]
    rfl
  have h2 : (ofItems [0]).end = 1 := by decide
  have h3 : (ofItems [0]).begin = 0 := by decide
  rw [h2, h3, h0] at h1
  cases h1

/-- When the bitset of the other set is not larger, comparisons do not disturb the loop. -/
theorem undisturbed_partial (items items' : List ℕ) (h : (ofItems items').size ≤ (ofItems items).size) (fuel : ℕ) :
    loop (compared (ofItems items')) (ofItems items).end fuel (ofItems items).begin (ofItems items) =
      iterate fuel (ofItems items) := by
  have : compared (ofItems items') (ofItems items) = ofItems items := by
    unfold compared
    rw [max_eq_left h]
    have hr := rep_ofItems items
    generalize ofItems items = s at hr
    rcases s with ⟨n, f⟩
    simp only [IndexedSet.resize, IndexedSet.mk.injEq, true_and]
    funext i
    have := (hr i).1
    simp only at this
    cases hb : f i with
    | false => rfl
    | true => simp [this hb]
  unfold iterate
  generalize (ofItems items).begin = pos
  induction fuel generalizing pos with
  | zero => rfl
  | succ fuel ih =>
    unfold loop
    simp only [this, id_eq, ih]

example : (ofItems [1, 2]).size ≤ (ofItems [4, 0]).size := by decide

end Verif.C66
