import Verif.Model.Forget
import Mathlib.Data.List.Nodup
import Mathlib.Data.List.Perm.Basic
import Mathlib.Data.List.Range

/-!
# C156: forgetting the surface keeps the interval exchange transformation
-/

namespace Verif.C156

open Verif Forget

theorem position_some {label : ℕ} : ∀ {n t : ℕ} {top : List ℕ}, position label n top = some t → ∃ i, t = n + i ∧ top[i]? = some label
  | _, _, [], h => by cases h
  | n, t, x :: top, h => by
    unfold position at h
    split at h
    · rename_i hx
      cases h
      exact ⟨0, rfl, by simp [hx]⟩
    · obtain ⟨i, h1, h2⟩ := position_some h
      exact ⟨i + 1, by omega, by simpa using h2⟩

theorem position_none {label : ℕ} : ∀ {n : ℕ} {top : List ℕ}, position label n top = none ↔ label ∉ top
  | _, [] => by simp [position]
  | n, x :: top => by
    unfold position
    split
    · rename_i hx
      simp [hx]
    · rename_i hx
      rw [position_none, List.mem_cons, not_or]
      exact ⟨fun h => ⟨fun k => hx k.symm, h⟩, fun h => h.2⟩

theorem bottomLabels_length_le (top : List ℕ) : ∀ bottom : List ℕ, (bottomLabels top bottom).length ≤ bottom.length
  | [] => le_refl _
  | l :: bottom => by
    unfold bottomLabels
    have := bottomLabels_length_le top bottom
    split
    · simpa using this
    · simp only [List.length_cons]
      omega

/-- Each label at the bottom is replaced with the position at which it is at the top. -/
theorem bottomLabels_correct {top : List ℕ} : ∀ {bottom : List ℕ}, (∀ l ∈ bottom, l ∈ top) →
    (bottomLabels top bottom).map (fun t => top[t]?) = bottom.map some
  | [], _ => rfl
  | l :: bottom, h => by
    unfold bottomLabels
    have ih := bottomLabels_correct (bottom := bottom) fun k hk => h k (List.mem_cons_of_mem _ hk)
    split
    · rename_i t ht
      obtain ⟨i, h1, h2⟩ := position_some ht
      rw [Nat.zero_add] at h1
      subst h1
      rw [List.map_cons, List.map_cons, ih, h2]
    · rename_i ht
      exact absurd (h l (by simp)) (position_none.1 ht)

/-- The transformation that is returned has the same number of intervals, the lengths of the intervals at the top and at the
bottom are the same, in the same order, and its bottom is a permutation of its top. -/
theorem forget_correct {T : Type} (dbg : Bool) (get : ℕ → T) {top bottom : List ℕ} (ht : top.Nodup) (hb : bottom.Perm top) :
    ∃ r, forget dbg get top bottom = .ok r ∧ r.top = List.range top.length ∧
      r.top.map (fun l => r.lengths[l]?) = top.map (fun l => some (get l)) ∧
      r.bottom.map (fun l => r.lengths[l]?) = bottom.map (fun l => some (get l)) ∧
      r.bottom.map (fun l => top[l]?) = bottom.map some ∧ r.bottom.Perm r.top := by
  have hc := bottomLabels_correct (top := top) (bottom := bottom) fun l hl => hb.subset hl
  have hlen : (bottomLabels top bottom).length = top.length := by
    have := congrArg List.length hc
    rw [List.length_map, List.length_map] at this
    rw [this, hb.length_eq]
  have hlt : ∀ t ∈ bottomLabels top bottom, t < top.length := by
    intro t h
    have : top[t]? ∈ bottom.map some := hc ▸ List.mem_map_of_mem (f := fun t => top[t]?) h
    obtain ⟨l, -, h2⟩ := List.mem_map.1 this
    exact (List.getElem?_eq_some_iff.1 h2.symm).1
  refine ⟨_, if_pos hlen, rfl, ?_, ?_, hc, ?_⟩
  · refine List.ext_getElem (by simp) fun i h1 h2 => ?_
    simp only [List.length_map] at h2
    simp [h2]
  · have : (bottomLabels top bottom).map (fun l => (top.map get)[l]?) =
        ((bottomLabels top bottom).map fun l => top[l]?).map (Option.map get) := by
      rw [List.map_map]
      refine List.map_congr_left fun l _ => ?_
      simp
    change (bottomLabels top bottom).map (fun l => (top.map get)[l]?) = _
    rw [this, hc, List.map_map]
    rfl
  · have hn : (bottomLabels top bottom).Nodup := by
      refine List.Nodup.of_map (fun t => top[t]?) ?_
      rw [hc]
      exact (hb.nodup_iff.2 ht).map (fun _ _ h => Option.some.inj h)
    refine (List.subperm_of_subset hn fun t h => List.mem_range.2 (hlt t h)).perm_of_length_le ?_
    rw [List.length_range, hlen]

/-- When there is a label at the bottom that is not at the top, then this is reported if assertions are enabled. -/
theorem forget_mismatch {T : Type} (dbg : Bool) (get : ℕ → T) {top bottom : List ℕ} (hl : bottom.length = top.length)
    (hb : ∃ l ∈ bottom, l ∉ top) : forget dbg get top bottom = .error (if dbg then .logicError else .undefined) := by
  refine if_neg ?_
  rw [← hl]
  obtain ⟨l, h1, h2⟩ := hb
  have : ∀ {bottom : List ℕ}, l ∈ bottom → (bottomLabels top bottom).length < bottom.length := by
    intro bottom
    induction bottom with
    | nil => intro h; cases h
    | cons k bottom ih =>
      intro h
      unfold bottomLabels
      have le := bottomLabels_length_le top bottom
      split
      · rename_i t ht
        rcases List.mem_cons.1 h with rfl | h
        · rw [position_none.2 h2] at ht
          cases ht
        · simpa using ih h
      · simp only [List.length_cons]
        omega
  exact (this h1).ne

/-- Different labels are printed differently. -/
theorem render_injective {a b : ℕ} (ha : a < 2 ^ 64) (hb : b < 2 ^ 64) (h : render a = render b) : a = b := by
  unfold render negSize at h
  split at h <;> split at h <;> simp only [Prod.mk.injEq] at h <;> first | omega | simp at h

/-- A transformation of three intervals with labels 4, 7, 2. -/
example : [4, 7, 2].Nodup ∧ [2, 7, 4].Perm [4, 7, 2] ∧ bottomLabels [4, 7, 2] [2, 7, 4] = [2, 1, 0] ∧
    bottomLabels [4, 7, 2] [2, 5, 4] = [2, 0] ∧ render 0 = (1, false) ∧ render (2 ^ 64 - 1) = (1, true) := by decide +kernel

end Verif.C156
