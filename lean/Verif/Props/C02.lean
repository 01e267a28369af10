import Verif.Lemmas.Permutation
import Verif.Spec.Permutation
import Mathlib.Data.Fintype.EquivFin

/-!
# C02: A Permutation can only be built from a bijection
-/

namespace Verif.C02

open Verif Spec

theorem describesBijection_iff (l : List (ℕ × ℕ)) :
    DescribesBijection l ↔ (l.map Prod.fst).Perm (List.range l.length) ∧
      (l.map Prod.snd).Perm (List.range l.length) := by
  constructor
  · rintro ⟨σ, hσ⟩
    have hsub1 : List.range l.length ⊆ l.map Prod.fst := by
      intro i hi
      exact List.mem_map_of_mem (f := Prod.fst) (hσ ⟨i, List.mem_range.1 hi⟩)
    have hsub2 : List.range l.length ⊆ l.map Prod.snd := by
      intro i hi
      have := List.mem_map_of_mem (f := Prod.snd) (hσ (σ.symm ⟨i, List.mem_range.1 hi⟩))
      simpa using this
    exact ⟨((List.nodup_range.subperm hsub1).perm_of_length_le (by simp)).symm,
      ((List.nodup_range.subperm hsub2).perm_of_length_le (by simp)).symm⟩
  · rintro ⟨h1, h2⟩
    obtain ⟨p, hp, hw, hs, hf⟩ := Perm.ofPairs_ok_of_perm h1 h2
    refine ⟨⟨fun i => ⟨p.fwd i, lt_of_lt_of_eq (hw.fwd_lt.2 (lt_of_lt_of_eq i.2 hs.symm)) hs⟩,
      fun i => ⟨p.inv i, lt_of_lt_of_eq (hw.inv_lt.2 (lt_of_lt_of_eq i.2 hs.symm)) hs⟩, ?_, ?_⟩, ?_⟩
    · intro i; ext; exact hw.left i
    · intro i; ext; exact hw.right i
    · intro i
      have : (i : ℕ) ∈ l.map Prod.fst := h1.mem_iff.2 (List.mem_range.2 i.2)
      obtain ⟨⟨k, v⟩, hkv, hk⟩ := List.mem_map.1 this
      simp only at hk
      subst hk
      have := hf _ hkv
      simp only at this
      simpa [this] using hkv

theorem isBijection_of_wf {p : Perm} (h : p.WF) : IsBijection p :=
  fun i hi => ⟨h.fwd_lt.2 hi, h.inv_lt.2 hi, h.left i, h.right i⟩

/-- Construction from pairs succeeds exactly when the pairs describe a bijection. -/
theorem pairs_ok_iff (l : List (ℕ × ℕ)) : (∃ p, Perm.ofPairs l = .ok p) ↔ DescribesBijection l := by
  rw [describesBijection_iff]
  constructor
  · rintro ⟨p, hp⟩
    exact Perm.perm_of_ofPairs_ok hp
  · rintro ⟨h1, h2⟩
    obtain ⟨p, hp, -⟩ := Perm.ofPairs_ok_of_perm h1 h2
    exact ⟨p, hp⟩

example : DescribesBijection [(2, 0), (0, 1), (1, 2)] := by
  rw [← pairs_ok_iff]
  exact ⟨_, rfl⟩

/-- On success the permutation is a bijection whose two lookup tables are mutually inverse and which does what the
pairs say. -/
theorem pairs_sound {l : List (ℕ × ℕ)} {p : Perm} (h : Perm.ofPairs l = .ok p) :
    p.size = l.length ∧ IsBijection p ∧ ∀ kv ∈ l, p.fwd kv.1 = kv.2 ∧ p.inv kv.2 = kv.1 := by
  obtain ⟨h1, h2, h3⟩ := Perm.ofPairs_ok h
  refine ⟨h2, isBijection_of_wf h1, fun kv hkv => ⟨h3 kv hkv, ?_⟩⟩
  rw [← h3 kv hkv, h1.left]

example : ∃ p, Perm.ofPairs [(2, 0), (0, 1), (1, 2)] = .ok p ∧ p.inv 2 = 1 := ⟨_, rfl, by decide⟩

/-- Construction from cycles succeeds exactly when each of `0, …, n - 1` occurs exactly once in them. -/
theorem cycles_ok_iff (cs : List (List ℕ)) : (∃ p, Perm.ofCycles cs = .ok p) ↔ DescribesCycles cs := by
  rw [Perm.ofCycles_ok_iff]
  constructor
  · intro h i hi
    rw [h.count_eq]
    exact List.count_eq_one_of_mem List.nodup_range (List.mem_range.2 hi)
  · intro h
    have hsub : List.range cs.flatten.length ⊆ cs.flatten := by
      intro i hi
      rw [← List.count_pos_iff, h i (List.mem_range.1 hi)]
      exact Nat.one_pos
    exact ((List.nodup_range.subperm hsub).perm_of_length_le (by simp)).symm

example : DescribesCycles [[3, 0], [1], [2, 4]] := by unfold DescribesCycles; decide

/-- On success the permutation maps each entry of a cycle to the next one, cyclically. -/
theorem cycles_sound {cs : List (List ℕ)} {p : Perm} (h : Perm.ofCycles cs = .ok p) :
    p.size = cs.flatten.length ∧ IsBijection p ∧ ∀ c ∈ cs, ∀ i (hi : i < c.length),
      p.fwd c[i] = c[(i + 1) % c.length]'(Nat.mod_lt _ (by omega)) := by
  obtain ⟨h1, h2, h3⟩ := Perm.ofCycles_ok h
  exact ⟨h2, isBijection_of_wf h1, h3⟩

example : ∃ p, Perm.ofCycles [[3, 0], [1], [2, 4]] = .ok p ∧ p.fwd 3 = 0 ∧ p.fwd 0 = 3 := ⟨_, rfl, by decide⟩

/-- The same for the constructor from the vector of images. -/
theorem images_ok_iff (l : List ℕ) : (∃ p, Perm.ofImages l = .ok p) ↔ ∀ i < l.length, l.count i = 1 := by
  constructor
  · rintro ⟨p, hp⟩ i hi
    rw [(Perm.perm_of_ofImages_ok hp).count_eq]
    exact List.count_eq_one_of_mem List.nodup_range (List.mem_range.2 hi)
  · intro h
    have hsub : List.range l.length ⊆ l := by
      intro i hi
      rw [← List.count_pos_iff, h i (List.mem_range.1 hi)]
      exact Nat.one_pos
    obtain ⟨p, hp, -⟩ := Perm.ofImages_ok_of_perm ((List.nodup_range.subperm hsub).perm_of_length_le (by simp)).symm
    exact ⟨p, hp⟩

theorem images_sound {l : List ℕ} {p : Perm} (h : Perm.ofImages l = .ok p) :
    p.size = l.length ∧ IsBijection p ∧ ∀ i (hi : i < l.length), p.fwd i = l[i] := by
  obtain ⟨h1, h2, h3⟩ := Perm.ofImages_ok h
  refine ⟨h2, isBijection_of_wf h1, fun i hi => ?_⟩
  rw [h3, List.getD_eq_getElem _ _ hi]

example : ∃ p, Perm.ofImages [2, 0, 1] = .ok p ∧ p.inv 0 = 1 := ⟨_, rfl, by decide⟩

/-- The full claim about rejection would be: whatever is not a bijection is reported as an invalid argument. -/
def RejectionClaim : Prop := ∀ l, ¬ DescribesBijection l → Perm.ofPairs l = .error .invalidArgument

/-- It does not hold: a repeated source leaves an uninitialised entry which is then used as an index, before
anything is checked. -/
theorem rejection_fails : ¬ RejectionClaim := by
  intro h
  have h1 : ¬ DescribesBijection [(0, 0), (0, 1)] := by
    rw [describesBijection_iff]
    intro hc
    exact absurd (hc.1.nodup_iff.2 List.nodup_range) (by decide)
  have h2 : Perm.ofPairs [(0, 0), (0, 1)] = .error .undefined := rfl
  have h3 := h _ h1
  rw [h2] at h3
  cases h3

/-- Non-bijections are reported if the sources are exactly `0, …, n - 1` and the targets are in range. (Missing: all
other malformed inputs, where the behaviour is undefined.) -/
theorem rejection_partial {l : List (ℕ × ℕ)} (h1 : ∀ i < l.length, (l.map Prod.fst).count i = 1)
    (h2 : ∀ kv ∈ l, kv.2 < l.length) (h3 : ¬ DescribesBijection l) :
    Perm.ofPairs l = .error .invalidArgument := by
  have hp : (l.map Prod.fst).Perm (List.range l.length) := by
    have hsub : List.range l.length ⊆ l.map Prod.fst := by
      intro i hi
      rw [← List.count_pos_iff, h1 i (List.mem_range.1 hi)]
      exact Nat.one_pos
    exact ((List.nodup_range.subperm hsub).perm_of_length_le (by simp)).symm
  apply Perm.ofPairs_invalid hp
  · intro v hv
    obtain ⟨kv, hkv, rfl⟩ := List.mem_map.1 hv
    exact h2 kv hkv
  · intro hn
    apply h3
    rw [describesBijection_iff]
    refine ⟨hp, (hn.subperm ?_).perm_of_length_le (by simp)⟩
    intro v hv
    obtain ⟨kv, hkv, rfl⟩ := List.mem_map.1 hv
    exact List.mem_range.2 (h2 kv hkv)

example : Perm.ofPairs [(1, 0), (0, 0), (2, 1)] = .error .invalidArgument := by
  apply rejection_partial
  · decide
  · decide
  · rw [describesBijection_iff]
    intro hc
    exact absurd (hc.2.nodup_iff.2 List.nodup_range) (by decide)

end Verif.C02
