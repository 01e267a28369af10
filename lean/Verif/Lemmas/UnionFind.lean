import Verif.Model.UnionFind
import Mathlib.Logic.Relation
import Mathlib.Order.Basic
import Mathlib.Order.Nat

/-!
# Union-find: the invariant
-/

namespace Verif.UnionFind

/-- The invariant: `root` is the topmost node of each node, `rank` is a bound on the depth. -/
structure Inv (s : State) (root : ℕ → ℕ) (rank : ℕ → ℕ) : Prop where
  root_eq : ∀ i, root (s i) = root i
  root_top : ∀ i, s i = i → root i = i
  rank_lt : ∀ i, s i ≠ i → rank (s i) < rank i

theorem Inv.root_root {s : State} {root rank : ℕ → ℕ} (h : Inv s root rank) (i : ℕ) :
    s (root i) = root i ∧ root (root i) = root i ∧ rank (root i) ≤ rank i := by
  induction hr : rank i using Nat.strong_induction_on generalizing i with
  | _ n ih =>
    by_cases hi : s i = i
    · rw [h.root_top i hi]
      exact ⟨hi, h.root_top i hi, hr.le⟩
    · have := ih (rank (s i)) (hr ▸ h.rank_lt i hi) (s i) rfl
      rw [h.root_eq] at this
      exact ⟨this.1, this.2.1, this.2.2.trans (hr ▸ h.rank_lt i hi).le⟩

theorem top_spec {s : State} {root rank : ℕ → ℕ} (h : Inv s root rank) (fuel i : ℕ) (hf : rank i < fuel) :
    ∃ s', top fuel s i = some (root i, s') ∧ Inv s' root rank := by
  induction fuel generalizing i with
  | zero => omega
  | succ fuel ih =>
    unfold top
    split_ifs with hi
    · exact ⟨s, by rw [h.root_top i hi], h⟩
    · have hlt := h.rank_lt i hi
      obtain ⟨s', h1, h2⟩ := ih (s i) (by omega)
      rw [h1, h.root_eq]
      refine ⟨_, rfl, ⟨fun k => ?_, fun k hk => ?_, fun k hk => ?_⟩⟩
      · by_cases hki : k = i
        · rw [hki, Function.update_self]; exact (h.root_root i).2.1
        · rw [Function.update_of_ne hki]; exact h2.root_eq k
      · by_cases hki : k = i
        · rw [hki, Function.update_self] at hk; rwa [hki]
        · rw [Function.update_of_ne hki] at hk; exact h2.root_top k hk
      · by_cases hki : k = i
        · rw [hki, Function.update_self]
          have := (h.root_root (s i)).2.2
          rw [h.root_eq] at this
          exact this.trans_lt hlt
        · rw [Function.update_of_ne hki] at hk ⊢; exact h2.rank_lt k hk

theorem Inv.join {s : State} {root rank : ℕ → ℕ} (h : Inv s root rank) (i j : ℕ) :
    Inv (Function.update s (root i) (root j)) (fun k => if root k = root i then root j else root k)
      (fun k => if root k = root i ∧ root i ≠ root j then rank k + rank (root j) + 1 else rank k) := by
  refine ⟨fun k => ?_, fun k hk => ?_, fun k hk => ?_⟩
  · by_cases hk : k = root i
    · rw [hk, Function.update_self]
      simp only [(h.root_root _).2.1]
      split_ifs <;> rfl
    · rw [Function.update_of_ne hk]
      rw [h.root_eq]
  · by_cases hki : k = root i
    · rw [hki, Function.update_self] at hk
      subst hki
      simp only [(h.root_root _).2.1, if_true, hk]
    · rw [Function.update_of_ne hki] at hk
      have := h.root_top k hk
      rw [if_neg (by rw [this]; exact hki), this]
  · by_cases hki : k = root i
    · subst hki
      rw [Function.update_self] at hk ⊢
      simp only [(h.root_root _).2.1, true_and]
      rw [if_neg (fun h => h.2 h.1.symm), if_pos hk.symm]
      omega
    · rw [Function.update_of_ne hki] at hk ⊢
      have := h.rank_lt k hk
      simp only [h.root_eq]
      split_ifs <;> omega

/-- The state represents an equivalence relation. -/
def Represents (s : State) (R : ℕ → ℕ → Prop) (B : ℕ) : Prop :=
  ∃ root rank, Inv s root rank ∧ (∀ i, rank i < B) ∧ ∀ i j, root i = root j ↔ Relation.EqvGen R i j

theorem represents_init : Represents init (fun _ _ => False) 1 := by
  refine ⟨id, fun _ => 0, ⟨fun _ => rfl, fun _ _ => rfl, fun i h => absurd rfl h⟩, fun _ => Nat.one_pos, fun i j => ?_⟩
  constructor
  · rintro rfl
    exact .refl _
  · intro h
    induction h with
    | rel _ _ h => exact h.elim
    | refl => rfl
    | symm _ _ _ h => exact h.symm
    | trans _ _ _ _ _ h h' => exact h.trans h'

theorem eqvGen_join {R : ℕ → ℕ → Prop} {s : State} {root rank : ℕ → ℕ} (hI : Inv s root rank)
    (h : ∀ i j, root i = root j ↔ Relation.EqvGen R i j) (i j a b : ℕ) :
    (if root a = root i then root j else root a) = (if root b = root i then root j else root b) ↔
      Relation.EqvGen (fun a b => R a b ∨ (a = i ∧ b = j)) a b := by
  have hmono : ∀ {a b}, Relation.EqvGen R a b → Relation.EqvGen (fun a b => R a b ∨ (a = i ∧ b = j)) a b := by
    intro a b hab
    induction hab with
    | rel _ _ h => exact .rel _ _ (Or.inl h)
    | refl => exact .refl _
    | symm _ _ _ h => exact h.symm
    | trans _ _ _ _ _ h h' => exact h.trans _ _ _ h'
  have hij : Relation.EqvGen (fun a b => R a b ∨ (a = i ∧ b = j)) i j := .rel _ _ (Or.inr ⟨rfl, rfl⟩)
  have hnew : ∀ k, Relation.EqvGen (fun a b => R a b ∨ (a = i ∧ b = j)) k (if root k = root i then root j else root k) := by
    intro k
    split_ifs with hk
    · exact ((hmono ((h k i).1 hk)).trans _ _ _ hij).trans _ _ _ (hmono ((h j (root j)).1 (hI.root_root j).2.1.symm))
    · exact hmono ((h k (root k)).1 (hI.root_root k).2.1.symm)
  constructor
  · intro hab
    have := hnew b
    rw [← hab] at this
    exact (hnew a).trans _ _ _ this.symm
  · intro hab
    induction hab with
    | rel x y h' =>
      rcases h' with h' | ⟨rfl, rfl⟩
      · rw [(h x y).2 (.rel _ _ h')]
      · rw [if_pos rfl]; split_ifs <;> rfl
    | refl => rfl
    | symm _ _ _ h => exact h.symm
    | trans _ _ _ _ _ h h' => exact h.trans h'

theorem top_represents {s : State} {R : ℕ → ℕ → Prop} {B : ℕ} (h : Represents s R B) {fuel : ℕ} (hf : B ≤ fuel) (i : ℕ) :
    ∃ r s', top fuel s i = some (r, s') ∧ Represents s' R B ∧ Relation.EqvGen R i r := by
  obtain ⟨root, rank, h1, h2, h3⟩ := h
  obtain ⟨s', h4, h5⟩ := top_spec h1 fuel i ((h2 i).trans_le hf)
  exact ⟨_, s', h4, ⟨root, rank, h5, h2, h3⟩, (h3 _ _).1 (h1.root_root i).2.1.symm⟩

theorem same_represents {s : State} {R : ℕ → ℕ → Prop} {B : ℕ} (h : Represents s R B) {fuel : ℕ} (hf : B ≤ fuel)
    (i j : ℕ) : ∃ b s', same fuel s i j = some (b, s') ∧ Represents s' R B ∧ (b = true ↔ Relation.EqvGen R i j) := by
  obtain ⟨root, rank, h1, h2, h3⟩ := h
  obtain ⟨s', h4, h5⟩ := top_spec h1 fuel i ((h2 i).trans_le hf)
  obtain ⟨s'', h6, h7⟩ := top_spec h5 fuel j ((h2 j).trans_le hf)
  refine ⟨root i == root j, s'', ?_, ⟨root, rank, h7, h2, h3⟩, ?_⟩
  · unfold same
    simp [h4, h6]
  · rw [beq_iff_eq, h3]

theorem join_represents (dbg : Bool) {s : State} {R : ℕ → ℕ → Prop} {B : ℕ} (h : Represents s R B) {fuel : ℕ}
    (hf : 2 * B + 1 ≤ fuel) (i j : ℕ) :
    ∃ s', join dbg fuel s i j = some (true, s') ∧ Represents s' (fun a b => R a b ∨ (a = i ∧ b = j)) (2 * B + 1) := by
  obtain ⟨root, rank, h1, h2, h3⟩ := h
  obtain ⟨s', h4, h5⟩ := top_spec h1 fuel j ((h2 j).trans_le (by omega))
  obtain ⟨s'', h6, h7⟩ := top_spec h5 fuel i ((h2 i).trans_le (by omega))
  have hr : Represents (Function.update s'' (root i) (root j)) (fun a b => R a b ∨ (a = i ∧ b = j)) (2 * B + 1) := by
    refine ⟨_, _, h7.join i j, fun k => ?_, fun a b => eqvGen_join h7 h3 i j a b⟩
    have := h2 k
    have := h2 (root j)
    split_ifs <;> omega
  unfold join
  cases dbg with
  | false =>
    refine ⟨_, ?_, hr⟩
    simp [h4, h6]
  | true =>
    obtain ⟨b, t, h8, h9, h10⟩ := same_represents hr hf i j
    have : b = true := h10.2 (.rel _ _ (Or.inr ⟨rfl, rfl⟩))
    subst this
    refine ⟨t, ?_, h9⟩
    simp [h4, h6, h8]

theorem Represents.congr {s : State} {R R' : ℕ → ℕ → Prop} {B : ℕ} (h : Represents s R B) (hR : ∀ a b, R a b ↔ R' a b) :
    Represents s R' B := by
  have : R = R' := by funext a b; exact propext (hR a b)
  rwa [this] at h

theorem Represents.mono {s : State} {R : ℕ → ℕ → Prop} {B C : ℕ} (h : Represents s R B) (hB : B ≤ C) :
    Represents s R C := by
  obtain ⟨root, rank, h1, h2, h3⟩ := h
  exact ⟨root, rank, h1, fun i => (h2 i).trans_le hB, h3⟩

theorem run_represents (dbg : Bool) (ops : List Op) (R : ℕ → ℕ → Prop) (B : ℕ) :
    ∃ N, ∀ fuel ≥ N, ∀ s, Represents s R B →
      ∃ s', run dbg fuel ops s = some (.ok s') ∧ Represents s' (fun a b => R a b ∨ Op.join a b ∈ ops) N := by
  induction ops generalizing R B with
  | nil => exact ⟨B, fun fuel hf s hs => ⟨s, rfl, hs.congr (by simp)⟩⟩
  | cons op ops ih =>
    cases op with
    | join i j =>
      obtain ⟨N, hN⟩ := ih (fun a b => R a b ∨ (a = i ∧ b = j)) (2 * B + 1)
      refine ⟨max N (2 * B + 1), fun fuel hf s hs => ?_⟩
      obtain ⟨s1, h1, h2⟩ := join_represents dbg hs ((le_max_right _ _).trans hf) i j
      obtain ⟨s2, h3, h4⟩ := hN fuel ((le_max_left _ _).trans hf) s1 h2
      refine ⟨s2, ?_, (h4.congr ?_).mono (le_max_left _ _)⟩
      · simp [run, step, h1, h3]
      · intro a b
        simp [or_assoc]
    | same i j =>
      obtain ⟨N, hN⟩ := ih R B
      refine ⟨max N B, fun fuel hf s hs => ?_⟩
      obtain ⟨b, s1, h1, h2, _⟩ := same_represents hs ((le_max_right _ _).trans hf) i j
      obtain ⟨s2, h3, h4⟩ := hN fuel ((le_max_left _ _).trans hf) s1 h2
      refine ⟨s2, ?_, (h4.congr ?_).mono (le_max_left _ _)⟩
      · simp [run, step, h1, h3]
      · intro a b
        simp
    | representative i =>
      obtain ⟨N, hN⟩ := ih R B
      refine ⟨max N B, fun fuel hf s hs => ?_⟩
      obtain ⟨b, s1, h1, h2, _⟩ := top_represents hs ((le_max_right _ _).trans hf) i
      obtain ⟨s2, h3, h4⟩ := hN fuel ((le_max_left _ _).trans hf) s1 h2
      refine ⟨s2, ?_, (h4.congr ?_).mono (le_max_left _ _)⟩
      · simp [run, step, representative, h1, h3]
      · intro a b
        simp

end Verif.UnionFind
