import Verif.Model.Equivalence
import Verif.Lemmas.Walker

/-!
Running several walkers in parallel and dropping those which are not minimal computes the minimal word.
-/

namespace Verif.EquivalenceWalker

variable {W C K : Type} [LinearOrder K] {step : W → Option (Option C × W)} {cmp : C → C → Ordering} {k : C → K}

theorem cons_le_cons' {a b : K} {l m : List K} (h : a < b) : a :: l ≤ b :: m :=
  le_of_lt (List.cons_lt_cons_iff.2 (.inl h))

theorem cons_le_cons_same {a : K} {l m : List K} (h : l ≤ m) : a :: l ≤ a :: m := by
  rw [← not_lt] at h ⊢
  intro hc
  rcases List.cons_lt_cons_iff.1 hc with hc | hc
  · exact lt_irrefl _ hc
  · exact h hc.2

/-- A pass when all walkers emit a character. -/
theorem round_spec (hcmp : ∀ a b, cmp a b = compare (k a) (k b)) (es : List (W × C × W))
    (hes : ∀ e ∈ es, step e.1 = some (some e.2.1, e.2.2)) (still : List W) (m : C) :
    ∃ m', round step cmp (es.map Prod.fst) still (some m) =
        some ((if k m' = k m then still else []) ++ (es.filter fun e => k e.2.1 = k m').map (·.2.2), some m') ∧
      (m' = m ∨ ∃ e ∈ es, m' = e.2.1) ∧ k m' ≤ k m ∧ ∀ e ∈ es, k m' ≤ k e.2.1 := by
  induction es generalizing still m with
  | nil => exact ⟨m, by simp [round], .inl rfl, le_refl _, by simp⟩
  | cons e es ih =>
    have h1 := hes e (by simp)
    have h2 := fun x hx => hes x (List.mem_cons_of_mem _ hx)
    simp only [List.map_cons, round, h1, hcmp]
    rcases lt_trichotomy (k e.2.1) (k m) with hlt | heq | hgt
    · rw [compare_lt_iff_lt.2 hlt]
      obtain ⟨m', h3, h4, h5, h6⟩ := ih h2 [e.2.2] e.2.1
      have hne : k m' ≠ k m := ne_of_lt (lt_of_le_of_lt h5 hlt)
      refine ⟨m', ?_, ?_, le_trans h5 hlt.le, ?_⟩
      · simp only
        rw [h3, if_neg hne, List.filter_cons]
        by_cases he : k m' = k e.2.1
        · rw [if_pos he, if_pos (by simp [he])]
          rfl
        · rw [if_neg he, if_neg (by simp [Ne.symm he])]
      · right
        rcases h4 with rfl | ⟨x, hx, rfl⟩
        · exact ⟨e, by simp, rfl⟩
        · exact ⟨x, List.mem_cons_of_mem _ hx, rfl⟩
      · intro x hx
        rcases List.mem_cons.1 hx with rfl | hx
        · exact h5
        · exact h6 x hx
    · rw [compare_eq_iff_eq.2 heq]
      obtain ⟨m', h3, h4, h5, h6⟩ := ih h2 (still ++ [e.2.2]) m
      refine ⟨m', ?_, ?_, h5, ?_⟩
      · simp only
        rw [h3, List.filter_cons]
        by_cases he : k m' = k m
        · rw [if_pos he, if_pos he, if_pos (by simp [he, heq])]
          simp
        · rw [if_neg he, if_neg he, if_neg (by simp [heq, Ne.symm he])]
      · rcases h4 with rfl | ⟨x, hx, rfl⟩
        · exact .inl rfl
        · exact .inr ⟨x, List.mem_cons_of_mem _ hx, rfl⟩
      · intro x hx
        rcases List.mem_cons.1 hx with rfl | hx
        · rw [heq]; exact h5
        · exact h6 x hx
    · rw [compare_gt_iff_gt.2 hgt]
      obtain ⟨m', h3, h4, h5, h6⟩ := ih h2 still m
      have hne : k e.2.1 ≠ k m' := ne_of_gt (lt_of_le_of_lt h5 hgt)
      refine ⟨m', ?_, ?_, h5, ?_⟩
      · simp only
        have hd : ¬ decide (k e.2.1 = k m') = true := by simpa using hne
        rw [h3, List.filter_cons, if_neg hd]
      · rcases h4 with rfl | ⟨x, hx, rfl⟩
        · exact .inl rfl
        · exact .inr ⟨x, List.mem_cons_of_mem _ hx, rfl⟩
      · intro x hx
        rcases List.mem_cons.1 hx with rfl | hx
        · exact (lt_of_le_of_lt h5 hgt).le
        · exact h6 x hx

theorem round_spec' (hcmp : ∀ a b, cmp a b = compare (k a) (k b)) (es : List (W × C × W)) (hne : es ≠ [])
    (hes : ∀ e ∈ es, step e.1 = some (some e.2.1, e.2.2)) :
    ∃ m', round step cmp (es.map Prod.fst) [] none =
        some ((es.filter fun e => k e.2.1 = k m').map (·.2.2), some m') ∧
      (∃ e ∈ es, m' = e.2.1) ∧ ∀ e ∈ es, k m' ≤ k e.2.1 := by
  cases es with
  | nil => exact absurd rfl hne
  | cons e es =>
    have h1 := hes e (by simp)
    have h2 := fun x hx => hes x (List.mem_cons_of_mem _ hx)
    simp only [List.map_cons, round, h1]
    obtain ⟨m', h3, h4, h5, h6⟩ := round_spec hcmp es h2 [e.2.2] e.2.1
    refine ⟨m', ?_, ?_, ?_⟩
    · rw [h3, List.filter_cons]
      by_cases he : k m' = k e.2.1
      · rw [if_pos he, if_pos (by simp [he])]
        rfl
      · rw [if_neg he, if_neg (by simp [Ne.symm he])]
        rfl
    · rcases h4 with rfl | ⟨x, hx, rfl⟩
      · exact ⟨e, by simp, rfl⟩
      · exact ⟨x, List.mem_cons_of_mem _ hx, rfl⟩
    · intro x hx
      rcases List.mem_cons.1 hx with rfl | hx
      · exact h5
      · exact h6 x hx

theorem round_done (ws : List W) (hws : ∀ w ∈ ws, step w = some (none, w)) :
    round step cmp ws [] none = some ([], none) := by
  induction ws with
  | nil => rfl
  | cons w ws ih =>
    simp only [round, hws w (by simp)]
    exact ih (fun x hx => hws x (List.mem_cons_of_mem _ hx))

theorem exists_map {A B : Type} {f : A → B} {P : A → Prop} (l : List B) (h : ∀ b ∈ l, ∃ a, f a = b ∧ P a) :
    ∃ l' : List A, l'.map f = l ∧ ∀ a ∈ l', P a := by
  induction l with
  | nil => exact ⟨[], rfl, by simp⟩
  | cons b l ih =>
    obtain ⟨l', h1, h2⟩ := ih (fun x hx => h x (List.mem_cons_of_mem _ hx))
    obtain ⟨a, h3, h4⟩ := h b (by simp)
    refine ⟨a :: l', by rw [List.map_cons, h1, h3], ?_⟩
    intro x hx
    rcases List.mem_cons.1 hx with rfl | hx
    · exact h4
    · exact h2 x hx

/-- The minimal word, and the walkers that produced it. Each walker comes with its word and its final state. -/
theorem loop_spec (hcmp : ∀ a b, cmp a b = compare (k a) (k b)) (hk : Function.Injective k) (m : ℕ) :
    ∀ (runs : List (W × List C × W)), runs ≠ [] → (∀ r ∈ runs, Run step r.1 r.2.1 r.2.2) →
      (∀ r ∈ runs, r.2.1.length = m) → ∀ (fuel : ℕ), m < fuel → ∀ (acc : List C),
      ∃ word, loop step cmp fuel (runs.map Prod.fst) acc =
          some (acc ++ word, (runs.filter fun r => r.2.1.map k = word.map k).map (·.2.2)) ∧
        (∃ r ∈ runs, r.2.1 = word) ∧ ∀ r ∈ runs, word.map k ≤ r.2.1.map k := by
  induction m with
  | zero =>
    intro runs hne hrun hlen fuel hf acc
    obtain ⟨fuel, rfl⟩ : ∃ j, fuel = j + 1 := ⟨fuel - 1, by omega⟩
    have hnil : ∀ r ∈ runs, r.2.1 = [] := fun r hr => List.length_eq_zero_iff.1 (hlen r hr)
    have hdone : ∀ r ∈ runs, step r.1 = some (none, r.1) ∧ r.2.2 = r.1 := by
      intro r hr
      have h1 := hrun r hr
      rw [hnil r hr] at h1
      generalize hb : r.2.2 = b at h1
      cases h1 with
      | done h => exact ⟨h, rfl⟩
    refine ⟨[], ?_, ?_, ?_⟩
    · simp only [loop]
      rw [round_done _ (by
        intro w hw
        obtain ⟨r, hr, rfl⟩ := List.mem_map.1 hw
        exact (hdone r hr).1)]
      simp only [List.append_nil, Option.some.injEq, Prod.mk.injEq, true_and]
      rw [List.filter_eq_self.2 (by intro r hr; simp [hnil r hr])]
      exact List.map_congr_left (fun r hr => (hdone r hr).2.symm)
    · obtain ⟨r, hr⟩ := List.exists_mem_of_ne_nil _ hne
      exact ⟨r, hr, hnil r hr⟩
    · intro r hr
      rw [hnil r hr]
  | succ m ih =>
    intro runs hne hrun hlen fuel hf acc
    obtain ⟨fuel, rfl⟩ : ∃ j, fuel = j + 1 := ⟨fuel - 1, by omega⟩
    -- all walkers make a step
    obtain ⟨es, rfl, hes⟩ := exists_map
      (f := fun e : W × C × W × List C × W => (e.1, e.2.1 :: e.2.2.2.1, e.2.2.2.2))
      (P := fun e => step e.1 = some (some e.2.1, e.2.2.1) ∧ Run step e.2.2.1 e.2.2.2.1 e.2.2.2.2) runs (by
        intro r hr
        have h1 := hrun r hr
        have h2 := hlen r hr
        obtain ⟨w, cs, f⟩ := r
        cases h1 with
        | done h => simp at h2
        | cons h h' => exact ⟨(_, _, _, _, _), rfl, h, h'⟩)
    have hne' : es ≠ [] := fun h => hne (by rw [h]; rfl)
    obtain ⟨c, h1, ⟨e₀, he₀, hc₀⟩, hmin⟩ := round_spec' hcmp (es.map fun e => (e.1, e.2.1, e.2.2.1)) (by simpa using hne')
      (by
        intro e he
        obtain ⟨x, hx, rfl⟩ := List.mem_map.1 he
        exact (hes x hx).1)
    obtain ⟨e₁, he₁, rfl⟩ := List.mem_map.1 he₀
    have hmem : e₁ ∈ es.filter fun e => k e.2.1 = k c := by
      rw [List.mem_filter]
      exact ⟨he₁, by simp [hc₀]⟩
    obtain ⟨word, h2, ⟨r, hr, hrw⟩, h4⟩ := ih
      ((es.filter fun e => k e.2.1 = k c).map fun e => (e.2.2.1, e.2.2.2.1, e.2.2.2.2))
      (fun h => by
        rw [List.map_eq_nil_iff] at h
        rw [h] at hmem
        simp at hmem)
      (by
        intro r hr
        obtain ⟨x, hx, rfl⟩ := List.mem_map.1 hr
        exact (hes x (List.mem_filter.1 hx).1).2)
      (by
        intro r hr
        obtain ⟨x, hx, rfl⟩ := List.mem_map.1 hr
        have := hlen _ (List.mem_map.2 ⟨x, (List.mem_filter.1 hx).1, rfl⟩)
        simpa using this) fuel (by omega) (acc ++ [c])
    refine ⟨c :: word, ?_, ?_, ?_⟩
    · simp only [loop]
      rw [List.map_map] at h1 ⊢
      have e1 : (Prod.fst ∘ fun e : W × C × W × List C × W => (e.1, e.2.1 :: e.2.2.2.1, e.2.2.2.2)) =
          (Prod.fst ∘ fun e : W × C × W × List C × W => (e.1, e.2.1, e.2.2.1)) := rfl
      rw [e1, h1]
      simp only
      rw [List.filter_map, List.map_map]
      rw [List.map_map] at h2
      have e2 : ((fun x : W × List C × W => x.1) ∘ fun e : W × C × W × List C × W => (e.2.2.1, e.2.2.2.1, e.2.2.2.2)) =
          ((fun x : W × C × W => x.2.2) ∘ fun e : W × C × W × List C × W => (e.1, e.2.1, e.2.2.1)) := rfl
      have e3 : ((fun e : W × C × W => decide (k e.2.1 = k c)) ∘ fun e : W × C × W × List C × W => (e.1, e.2.1, e.2.2.1)) =
          fun e => decide (k e.2.1 = k c) := rfl
      rw [e3, ← e2, h2]
      simp only [Option.some.injEq, Prod.mk.injEq, List.append_assoc, List.singleton_append, true_and]
      rw [List.filter_map, List.filter_map, List.map_map, List.map_map, List.filter_filter]
      congr 1
      apply List.filter_congr
      intro e _
      simp only [Function.comp, List.map_cons, List.cons.injEq, Bool.decide_and, Bool.and_comm]
    · obtain ⟨x, hx, rfl⟩ := List.mem_map.1 hr
      have hx' := List.mem_filter.1 hx
      refine ⟨_, List.mem_map.2 ⟨x, hx'.1, rfl⟩, ?_⟩
      simp only at hrw ⊢
      rw [hrw]
      congr 1
      exact hk (by simpa using hx'.2)
    · intro r hr
      obtain ⟨x, hx, rfl⟩ := List.mem_map.1 hr
      have h5 := hmin _ (List.mem_map.2 ⟨x, hx, rfl⟩)
      simp only [List.map_cons] at h5 ⊢
      rcases lt_or_eq_of_le h5 with h5 | h5
      · exact cons_le_cons' h5
      · rw [h5]
        refine cons_le_cons_same ?_
        exact h4 (x.2.2.1, x.2.2.2.1, x.2.2.2.2) (List.mem_map.2 ⟨x, List.mem_filter.2 ⟨hx, by simp [h5]⟩, rfl⟩)

end Verif.EquivalenceWalker
