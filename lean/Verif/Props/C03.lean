import Verif.Lemmas.PermReachable

/-!
# C03: In-place multiplication by a cycle is composition

Permutations are compared with bijections of Mathlib: `List.formPerm c` is the cycle `c₀ ↦ c₁ ↦ ⋯ ↦ cₖ ↦ c₀` and `*` is
composition of functions.
-/

namespace Verif.C03

open Verif Spec Perm

/-- After any sequence of operations the two lookup directions are mutually inverse. -/
theorem reachable_bijection {p : Perm} (h : Reachable p) : IsBijection p :=
  fun i hi => ⟨h.wf.fwd_lt.2 hi, h.wf.inv_lt.2 hi, h.wf.left i, h.wf.right i⟩

example : ∃ p, Reachable p ∧ p.fwd 0 = 3 ∧ p.inv 3 = 0 := by
  refine ⟨_, .mulCycle (c := [0, 2, 1]) (.ofCycles (cs := [[0, 1], [2, 3]]) rfl) rfl, by decide⟩

/-- The bijection of the natural numbers which a reachable permutation stands for. -/
theorem represents_unique {p : Perm} {σ τ : Equiv.Perm ℕ} (h1 : Represents p σ) (h2 : Represents p τ) :
    ∀ i < p.size, σ i = τ i := fun i hi => (h1 i hi).1.symm.trans (h2 i hi).1

/-- `p *= {c₀, …, cₖ}` is the composition `p ∘ (c₀ ⋯ cₖ)`. -/
theorem mulCycle_composition {p p' : Perm} (hp : Reachable p) {c : List ℕ} (h : p.mulCycle c = .ok p') :
    p'.size = p.size ∧ ∀ σ, (∀ i, p.fwd i = σ i) → Represents p' (σ * c.formPerm) := by
  obtain ⟨hw, hs, he⟩ := Perm.mulCycle_spec hp.wf h
  refine ⟨hs, fun σ hσ i _ => ?_⟩
  have : p.toEquiv hp.wf = σ := Equiv.ext hσ
  rw [this] at he
  rw [← he]
  exact ⟨rfl, rfl⟩

/-- The formulation for single elements. -/
theorem mulCycle_apply {p p' : Perm} (hp : Reachable p) {c : List ℕ} (h : p.mulCycle c = .ok p') (i : ℕ) :
    p'.fwd i = p.fwd (c.formPerm i) := by
  obtain ⟨hw, hs, he⟩ := Perm.mulCycle_spec hp.wf h
  exact DFunLike.congr_fun he i

example : ∃ p p', Reachable p ∧ p.mulCycle [0, 2, 1] = .ok p' ∧ p'.fwd 0 = p.fwd 2 :=
  ⟨_, _, .ofCycles (cs := [[0, 1], [2, 3]]) rfl, rfl, by decide⟩

/-- Multiplication by a cycle succeeds exactly when the cycle consists of distinct entries, or of at most one entry
repeated, which is then ignored; entries out of range are not allowed. -/
theorem mulCycle_rejects {p : Perm} {c : List ℕ} (hn : ¬ c.Nodup) (hc : ∃ x ∈ c, ∃ y ∈ c, x ≠ y) :
    p.mulCycle c = .error .invalidArgument := by
  unfold Perm.mulCycle
  have h1 : ¬ c.dedup.length ≤ 1 := by
    intro h
    obtain ⟨x, hx, y, hy, hxy⟩ := hc
    rw [← List.mem_dedup] at hx hy
    rcases hd : c.dedup with _ | ⟨a, _ | ⟨b, t⟩⟩
    · rw [hd] at hx; cases hx
    · rw [hd] at hx hy; simp at hx hy; exact hxy (hx.trans hy.symm)
    · rw [hd] at h; simp at h
  rw [if_neg h1, if_pos]
  intro h
  apply hn
  rw [← List.dedup_eq_self]
  exact (List.dedup_sublist c).eq_of_length h

example : ¬ [0, 1, 0].Nodup ∧ ∃ x ∈ [0, 1, 0], ∃ y ∈ [0, 1, 0], x ≠ y := by decide

theorem mulCycle_succeeds {p : Perm} {c : List ℕ} (hn : c.Nodup) (hlt : ∀ x ∈ c, x < p.size) :
    ∃ p', p.mulCycle c = .ok p' := Perm.mulCycle_ok hn hlt

/-- `p *= q` is the composition `p ∘ q`. -/
theorem mul_composition {p q : Perm} (hp : Reachable p) (hq : Reachable q) (hs : p.size = q.size) :
    ∃ r, p.mul q = .ok r ∧ r.size = p.size ∧ ∀ i, r.fwd i = p.fwd (q.fwd i) ∧ r.inv i = q.inv (p.inv i) := by
  obtain ⟨r, h1, h2, h3, h4⟩ := Perm.mul_spec hp.wf hq.wf hs
  refine ⟨r, h1, h3, fun i => ⟨DFunLike.congr_fun h4 i, ?_⟩⟩
  have := DFunLike.congr_fun (congrArg (·⁻¹) h4) i
  exact this

theorem mul_rejects {p q : Perm} (hs : p.size ≠ q.size) : p.mul q = .error .invalidArgument := by
  unfold Perm.mul
  rw [if_pos hs]

/-- `~p` is the inverse. -/
theorem inverse_inverse {p : Perm} (hp : Reachable p) :
    ∃ q, p.inverse = .ok q ∧ q.size = p.size ∧ ∀ i, q.fwd i = p.inv i ∧ q.inv i = p.fwd i := by
  obtain ⟨q, h1, h2, h3, h4⟩ := Perm.inverse_spec hp.wf
  refine ⟨q, h1, h3, fun i => ⟨DFunLike.congr_fun h4 i, ?_⟩⟩
  have := DFunLike.congr_fun (congrArg (·⁻¹) h4) i
  rw [inv_inv] at this
  exact this

/-- What `cycle *= p` computes: the composition of `p` with the *inverse* of the cycle. -/
theorem cycleMul_apply {p p' : Perm} (hp : Reachable p) {c : List ℕ} (h : Perm.cycleMul c p = .ok p') (i : ℕ) :
    p'.size = p.size ∧ p'.fwd i = c.formPerm⁻¹ (p.fwd i) := by
  obtain ⟨hw, hs, he⟩ := Perm.cycleMul_spec hp.wf h
  exact ⟨hs, DFunLike.congr_fun he i⟩

/-- The claim that `cycle *= p` is `cycle ∘ p`. -/
def LeftClaim : Prop :=
  ∀ (p p' : Perm) (c : List ℕ), Reachable p → Perm.cycleMul c p = .ok p' → ∀ i < p.size, p'.fwd i = c.formPerm (p.fwd i)

/-- It fails for cycles of length three. -/
theorem left_fails : ¬ LeftClaim := by
  intro h
  have h1 := h _ _ [0, 1, 2] (.ofCycles (cs := [[0], [1], [2]]) rfl) rfl 0 (by decide)
  revert h1
  decide

/-- It holds for transpositions, the only case the library uses. (Missing: longer cycles, for which it is false.) -/
theorem cycleMul_transposition_partial {p p' : Perm} (hp : Reachable p) {a b : ℕ}
    (h : Perm.cycleMul [a, b] p = .ok p') (i : ℕ) : p'.fwd i = Equiv.swap a b (p.fwd i) := by
  rw [(cycleMul_apply hp h i).2]
  simp

example : ∃ p p', Reachable p ∧ Perm.cycleMul [0, 2] p = .ok p' ∧ p'.fwd 1 = 2 :=
  ⟨_, _, .ofCycles (cs := [[0, 1], [2, 3]]) rfl, rfl, by decide⟩

end Verif.C03
