import Verif.Props.C47

/-!
# C80: the answer false of parabolic() cannot change

This does not hold. `circumferenceHolonomy()` is meant to throw for components which are not known to be cylinders but
`if (not cylinder())` does not hold when this is undetermined. The modulus that `parabolic()` compares with is then the one of
a cylinder that does not exist.
-/

namespace Verif.C80

open Verif Spec FlowPiece

set_option linter.unusedSectionVars false

variable {T : Type} [CommRing T] [LinearOrder T] [IsStrictOrderedRing T]

/-- The answer `false` does not change. -/
def FalseStable (co : T → T → List ℚ × List ℚ) : Prop :=
  ∀ l l' : List (FlowPiece T), Proper l → Proper l' → FurtherDecomposed l l' → parabolic co l = .ok (some false) →
    parabolic co l' = .ok (some false)

/-- The answer `false` is correct if a component is known not to be a cylinder or if two components that are known to be
cylinders have incommensurable moduli. -/
theorem false_stable_partial {f : T →+* ℝ} (hf : StrictMono f) {co : T → T → List ℚ × List ℚ} (h : IsCoefficients f co)
    {l l' : List (FlowPiece T)} (hl' : Proper l') (hd : FurtherDecomposed l l')
    (hl : (∃ c ∈ l, c.cylinder = some false) ∨
      ∃ c ∈ l, ∃ d ∈ l, c.cylinder = some true ∧ d.cylinder = some true ∧ ¬ Commensurable (modulus f c) (modulus f d)) :
    parabolic co l' = .ok (some false) ∧ ¬ Parabolic f l' := by
  have : parabolic co l' = .ok (some false) := by
    refine (parabolic_eq hf h hl').2.2 ?_
    rcases hl with ⟨c, hc, hx⟩ | ⟨c, hc, d, hd', hx, hy, hn⟩
    · exact .inl ⟨c, C47.mem_of_further hd hc (by simp [hx]), hx⟩
    · exact .inr ⟨c, C47.mem_of_further hd hc (by simp [hx]), d, C47.mem_of_further hd hd' (by simp [hy]), hn⟩
  refine ⟨this, fun hp => ?_⟩
  rw [(C47.parabolic_true hf h hl').2 hp] at this
  cases this

example : ∃ l l' : List (FlowPiece ℤ), Proper l' ∧ FurtherDecomposed l l' ∧ ∃ c ∈ l, c.cylinder = some false := by
  refine ⟨[⟨none, ⟨1, 0⟩, 1⟩, ⟨some false, ⟨1, 0⟩, 1⟩], [⟨some true, ⟨1, 0⟩, 1⟩, ⟨some false, ⟨1, 0⟩, 1⟩], ?_,
    ⟨[[⟨some true, ⟨1, 0⟩, 1⟩], [⟨some false, ⟨1, 0⟩, 1⟩]], List.Perm.refl _,
      .cons ⟨fun h => absurd rfl h, by simp, by simp⟩ (.cons ⟨fun _ => rfl, by simp, by simp⟩ .nil)⟩, _,
    List.mem_cons_of_mem _ (List.mem_singleton_self _), rfl⟩
  intro c hc
  simp only [List.mem_cons, List.not_mem_nil, or_false] at hc
  rcases hc with rfl | rfl <;> exact ⟨by decide, by decide⟩

/-- A cylinder, and a component of which it is not known yet that it is a cylinder. The first entry of the holonomy of the
latter is not its circumference. -/
def before : List (FlowPiece C47.R) := [⟨some true, ⟨0, 1⟩, 1⟩, ⟨none, ⟨0, 1⟩, ⟨3, 2⟩⟩]

/-- The answer for these components is `false` but they turn out to be two cylinders with the same modulus. -/
theorem not_falseStable : ¬ FalseStable C47.co := by
  intro h
  have hb : Proper before := by
    intro c hc
    simp only [before, List.mem_cons, List.not_mem_nil, or_false] at hc
    rcases hc with rfl | rfl
    · exact ⟨one_pos, fun h => by simpa using congrArg Vec.y h⟩
    · refine ⟨(C47.cylinders_proper _ (List.mem_cons_of_mem _ (List.mem_singleton_self _))).1, fun h => ?_⟩
      simpa using congrArg Vec.y h
  have hi : ¬ Commensurable (modulus C47.emb (⟨some true, ⟨0, 1⟩, 1⟩ : FlowPiece C47.R))
      (modulus C47.emb (⟨none, ⟨0, 1⟩, ⟨3, 2⟩⟩ : FlowPiece C47.R)) := by
    rw [C47.modulus_one]
    rintro ⟨p, q, hp, hq, he⟩
    unfold modulus at he
    simp only [map_zero, map_one, C47.emb_def] at he
    have := (C47.independent (p := 3 * q - p) (q := 2 * q) (by push_cast at he ⊢; linarith)).2
    apply hq
    have : (q : ℚ) = 0 := by linarith
    exact_mod_cast this
  have h1 := h before C47.cylinders hb C47.cylinders_proper
    ⟨[[⟨some true, ⟨0, 1⟩, 1⟩], [⟨some true, ⟨0, ⟨1, 1⟩⟩, ⟨3, 2⟩⟩]], List.Perm.refl _,
      .cons ⟨fun _ => rfl, by simp, by simp⟩ (.cons ⟨fun h => absurd rfl h, by simp, by simp⟩ .nil)⟩
    ((parabolic_eq C47.emb_strictMono C47.co_isCoefficients hb).2.2
      (.inr ⟨_, List.mem_cons_self, _, List.mem_cons_of_mem _ (List.mem_singleton_self _), hi⟩))
  rw [(C47.parabolic_true C47.emb_strictMono C47.co_isCoefficients C47.cylinders_proper).2 C47.cylinders_parabolic] at h1
  cases h1

end Verif.C80
