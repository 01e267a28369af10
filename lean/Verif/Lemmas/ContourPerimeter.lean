import Verif.Lemmas.ContourComponent

/-!
# Going around perimeters
-/

namespace Verif.Contour

open Spec

theorem last_ok {l : List HE} (h : l ≠ []) : last l = .ok (l.getLast h) := by
  unfold last
  rw [List.getLast?_eq_some_getLast h]

theorem first_ok {l : List HE} (h : l ≠ []) : first l = .ok (l.head h) := by
  unfold first
  rw [List.head?_eq_some_head h]

theorem after_ok {l : List HE} (hn : l.Nodup) {i : ℕ} (hi : i + 1 < l.length) : after l l[i] = .ok l[i + 1] := by
  unfold after
  rw [hn.idxOf_getElem i (by omega), List.getElem?_eq_getElem hi]

theorem before_ok {l : List HE} (hn : l.Nodup) {i : ℕ} (hi : i + 1 < l.length) : before l l[i + 1] = .ok l[i] := by
  unfold before
  rw [hn.idxOf_getElem (i + 1) hi, if_neg (by omega), Nat.add_sub_cancel, List.getElem?_eq_getElem (by omega)]

/-- Where half edges that follow each other are. -/
theorem follows_cases {b t : List HE} (hb : b ≠ []) (ht : t ≠ []) {x y : HE} (hf : Follows (b ++ t) x y) :
    (x = b.getLast hb ∧ y = t.head ht) ∨ (x = t.getLast ht ∧ y = b.head hb) ∨
    (∃ i, ∃ h : i + 1 < b.length, x = b[i] ∧ y = b[i + 1]) ∨ ∃ i, ∃ h : i + 1 < t.length, x = t[i] ∧ y = t[i + 1] := by
  have lb := List.length_pos_iff.2 hb
  have lt := List.length_pos_iff.2 ht
  obtain ⟨i, hi, hx, hy⟩ := hf
  rw [List.length_append] at hi hy
  by_cases h1 : i < b.length
  · rw [Nat.mod_eq_of_lt (by omega)] at hy
    rw [List.getElem?_append_left h1, List.getElem?_eq_getElem h1] at hx
    cases hx
    by_cases h2 : i + 1 < b.length
    · rw [List.getElem?_append_left h2, List.getElem?_eq_getElem h2] at hy
      cases hy
      exact .inr (.inr (.inl ⟨i, h2, rfl, rfl⟩))
    · rw [List.getElem?_append_right (by omega), show i + 1 - b.length = 0 by omega, List.getElem?_eq_getElem lt] at hy
      cases hy
      refine .inl ⟨?_, ?_⟩
      · rw [List.getLast_eq_getElem]
        congr 1
        omega
      · rw [List.head_eq_getElem]
  · rw [List.getElem?_append_right (by omega), List.getElem?_eq_getElem (by omega)] at hx
    cases hx
    by_cases h2 : i - b.length + 1 < t.length
    · rw [Nat.mod_eq_of_lt (by omega), List.getElem?_append_right (by omega), show i + 1 - b.length = i - b.length + 1 by omega,
        List.getElem?_eq_getElem h2] at hy
      cases hy
      exact .inr (.inr (.inr ⟨_, h2, rfl, rfl⟩))
    · rw [show i + 1 = b.length + t.length by omega, Nat.mod_self, List.getElem?_append_left lb, List.getElem?_eq_getElem lb] at hy
      cases hy
      refine .inr (.inl ⟨?_, ?_⟩)
      · rw [List.getLast_eq_getElem]
        congr 1
        omega
      · rw [List.head_eq_getElem]

theorem not_last {l : List HE} (hn : l.Nodup) {i : ℕ} (hi : i + 1 < l.length) (hl : l ≠ []) : l[i] ≠ l.getLast hl := by
  rw [List.getLast_eq_getElem]
  intro hx
  have := (hn.getElem_inj_iff (hi := by omega) (hj := by omega)).1 hx
  omega

theorem not_first {l : List HE} (hn : l.Nodup) {i : ℕ} (hi : i + 1 < l.length) (hl : l ≠ []) : l[i + 1] ≠ l.head hl := by
  rw [List.head_eq_getElem]
  intro hx
  have := (hn.getElem_inj_iff (hi := hi) (hj := by omega)).1 hx
  omega

theorem next_follows {d : Component} (hn : d.perimeter.Nodup) (hb : d.bottomEdges ≠ []) (ht : d.topEdges ≠ []) {x y : HE}
    (hf : Follows d.perimeter x y) : d.nextInPerimeter x = .ok y ∧ d.previousInPerimeter y = .ok x := by
  unfold Component.perimeter at hn hf
  obtain ⟨n1, n2, n3⟩ := List.nodup_append.1 hn
  unfold Component.nextInPerimeter Component.previousInPerimeter
  rw [last_ok hb, first_ok ht, last_ok ht, first_ok hb]
  simp only [bind, Except.bind]
  have dj : ∀ x, x ∈ d.bottomEdges → x ∈ d.topEdges → False := fun x h1 h2 => n3 x h1 x h2 rfl
  have m1 := List.getLast_mem hb
  have m2 := List.getLast_mem ht
  have m3 := List.head_mem hb
  have m4 := List.head_mem ht
  rcases follows_cases hb ht hf with ⟨rfl, rfl⟩ | ⟨rfl, rfl⟩ | ⟨i, hi, rfl, rfl⟩ | ⟨i, hi, rfl, rfl⟩
  · rw [if_pos rfl, if_neg (n3 _ m3 _ m4).symm, if_pos rfl]
    exact ⟨rfl, rfl⟩
  · rw [if_neg (n3 _ m1 _ m2).symm, if_pos rfl, if_pos rfl]
    exact ⟨rfl, rfl⟩
  · have k1 : d.bottomEdges[i] ∈ d.bottomEdges := List.getElem_mem _
    have k2 : d.bottomEdges[i + 1] ∈ d.bottomEdges := List.getElem_mem _
    rw [if_neg (not_last n1 hi hb), if_neg (n3 _ k1 _ m2), if_pos k1, if_neg (not_first n1 hi hb),
      if_neg (n3 _ k2 _ m4), if_pos k2, after_ok n1 hi, before_ok n1 hi]
    exact ⟨rfl, rfl⟩
  · have k1 : d.topEdges[i] ∈ d.topEdges := List.getElem_mem _
    have k2 : d.topEdges[i + 1] ∈ d.topEdges := List.getElem_mem _
    rw [if_neg (n3 _ m1 _ k1).symm, if_neg (not_last n2 hi ht), if_neg (fun hx => dj _ hx k1), if_pos k1,
      if_neg (n3 _ m3 _ k2).symm, if_neg (not_first n2 hi ht), if_neg (fun hx => dj _ hx k2), if_pos k2,
      after_ok n2 hi, before_ok n2 hi]
    exact ⟨rfl, rfl⟩

theorem next_error {d : Component} (hb : d.bottomEdges ≠ []) (ht : d.topEdges ≠ []) {x : HE} (hx : x ∉ d.perimeter) :
    d.nextInPerimeter x = .error .logicError ∧ d.previousInPerimeter x = .error .logicError := by
  unfold Component.perimeter at hx
  rw [List.mem_append, not_or] at hx
  unfold Component.nextInPerimeter Component.previousInPerimeter
  rw [last_ok hb, first_ok ht, last_ok ht, first_ok hb]
  simp only [bind, Except.bind]
  have k1 : x ≠ d.bottomEdges.getLast hb := fun h => hx.1 (by rw [h]; exact List.getLast_mem hb)
  have k2 : x ≠ d.topEdges.getLast ht := fun h => hx.2 (by rw [h]; exact List.getLast_mem ht)
  have k3 : x ≠ d.bottomEdges.head hb := fun h => hx.1 (by rw [h]; exact List.head_mem hb)
  have k4 : x ≠ d.topEdges.head ht := fun h => hx.2 (by rw [h]; exact List.head_mem ht)
  rw [if_neg k1, if_neg k2, if_neg hx.1, if_neg hx.2, if_neg k3, if_neg k4, if_neg hx.1, if_neg hx.2]
  exact ⟨rfl, rfl⟩

end Verif.Contour
