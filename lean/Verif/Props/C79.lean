import Verif.Props.C47

/-!
# C79: completelyPeriodic() only gives definite answers which cannot change

This does not hold. In `if (state != true) return state;` the comparison with an indeterminate state is indeterminate, so
the condition does not hold, and undetermined components are treated as cylinders.
-/

namespace Verif.C79

open Verif Spec FlowPiece

set_option linter.unusedSectionVars false

variable {T : Type} [CommRing T] [LinearOrder T] [IsStrictOrderedRing T]

/-- A definite answer does not change. -/
def Stable (T : Type) [CommRing T] [LinearOrder T] : Prop :=
  ∀ (l l' : List (FlowPiece T)) (b : Bool), FurtherDecomposed l l' → completelyPeriodic l = some b →
    completelyPeriodic l' = some b

/-- What is computed: the answer is `false` if a component is known not to be a cylinder, and `true` otherwise. -/
theorem completelyPeriodic_eq (l : List (FlowPiece T)) :
    ((∃ c ∈ l, c.cylinder = some false) → completelyPeriodic l = some false) ∧
    ((∀ c ∈ l, c.cylinder ≠ some false) → completelyPeriodic l = some true) := by
  induction l with
  | nil => simp [completelyPeriodic]
  | cons c l ih =>
    unfold completelyPeriodic
    rcases hc : c.cylinder with _ | _ | _ <;> simp_all [Tribool.ne, Tribool.eq, Tribool.or, Tribool.and, Tribool.not,
      Tribool.isTrue]
    · exact ih.1
    · exact ih.1

/-- If it is known of each component whether it is a cylinder, then the answer is correct. -/
theorem completelyPeriodic_partial {l : List (FlowPiece T)} (h : Determined l) :
    (completelyPeriodic l = some true ↔ ∀ c ∈ l, c.cylinder = some true) ∧
    (completelyPeriodic l = some false ↔ ∃ c ∈ l, c.cylinder = some false) := by
  obtain ⟨h1, h2⟩ := completelyPeriodic_eq l
  by_cases hc : ∃ c ∈ l, c.cylinder = some false
  · rw [h1 hc]
    refine ⟨⟨fun h => (by cases h), fun h => ?_⟩, fun _ => hc, fun _ => rfl⟩
    obtain ⟨c, hc, hx⟩ := hc
    rw [h c hc] at hx
    cases hx
  · rw [h2 fun c hc' hx => hc ⟨c, hc', hx⟩]
    refine ⟨⟨fun _ c hc' => ?_, fun _ => rfl⟩, fun h => (by cases h), fun h => absurd h hc⟩
    rcases hx : c.cylinder with _ | _ | _
    · exact absurd hx (h c hc')
    · exact absurd ⟨c, hc', hx⟩ hc
    · rfl

example : Determined [(⟨some true, ⟨1, 0⟩, 1⟩ : FlowPiece ℤ), ⟨some false, ⟨1, 0⟩, 1⟩] := by
  intro c hc
  simp only [List.mem_cons, List.not_mem_nil, or_false] at hc
  rcases hc with rfl | rfl <;> simp

/-- The answer `false` does not change. -/
theorem false_stable {l l' : List (FlowPiece T)} (h : FurtherDecomposed l l') (hb : completelyPeriodic l = some false) :
    completelyPeriodic l' = some false := by
  obtain ⟨-, h2⟩ := completelyPeriodic_eq l
  have : ∃ c ∈ l, c.cylinder = some false := by
    by_contra hc
    rw [h2 fun c hc' hx => hc ⟨c, hc', hx⟩] at hb
    cases hb
  obtain ⟨c, hc, hx⟩ := this
  exact (completelyPeriodic_eq l').1 ⟨c, C47.mem_of_further h hc (by simp [hx]), hx⟩

/-- There is always a definite answer, also if nothing is known. -/
theorem never_indeterminate (l : List (FlowPiece T)) : completelyPeriodic l ≠ none := by
  obtain ⟨h1, h2⟩ := completelyPeriodic_eq l
  by_cases hc : ∃ c ∈ l, c.cylinder = some false
  · rw [h1 hc]; simp
  · rw [h2 fun c hc' hx => hc ⟨c, hc', hx⟩]; simp

/-- An undetermined component makes the answer `true`, which can turn out to be wrong. -/
theorem not_stable : ¬ Stable ℤ := by
  intro h
  have := h [⟨none, ⟨1, 0⟩, 1⟩] [⟨some false, ⟨1, 0⟩, 1⟩] true
    ⟨[[⟨some false, ⟨1, 0⟩, 1⟩]], List.Perm.refl _, .cons ⟨fun h => absurd rfl h, by simp, by simp⟩ .nil⟩ (by decide)
  exact absurd this (by decide)

end Verif.C79
