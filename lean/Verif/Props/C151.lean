import Verif.Lemmas.QuadraticRoot
import Mathlib.Tactic.NormNum

/-!
# C151: the first time when a triangle degenerates is approximated correctly
-/

namespace Verif.C151

open Verif Spec Quadratic QuadraticRoot

variable {T : Type} [CommRing T] [LinearOrder T] [IsStrictOrderedRing T] {f : T →+* ℝ}

/-- There is a result if and only if there is a root in the unit interval, and the result encloses such a root. -/
theorem root_exists (hf : StrictMono f) {B : RootBalls T ℝ} {p : Quadratic T} (hB : Enclosing f B p) {fuel n : ℕ}
    {r : Option (Ball ℝ)} (h : root B p fuel n = some r) :
    (r = none → ∀ t, 0 ≤ t → t ≤ 1 → ¬ IsRoot f p t) ∧
    ∀ b, r = some b → ∃ t, 0 ≤ t ∧ t ≤ 1 ∧ IsRoot f p t ∧ b.Mem t := by
  induction fuel generalizing n r with
  | zero => cases h
  | succ fuel ih =>
    -- The validation of an approximation of a root.
    have val : p.c ≠ 0 → ∀ {s : Option (Ball ℝ)} {w : ℝ} {r : Option (Ball ℝ)}, (∀ b, s = some b → b.Mem w) → IsRoot f p w →
        p.validate (root B p fuel (n + 1)) s = some r →
        (r = none → ¬ (0 ≤ w ∧ w ≤ 1)) ∧ ∀ b, r = some b → ∃ t, 0 ≤ t ∧ t ≤ 1 ∧ IsRoot f p t ∧ b.Mem t := by
      intro hc s w r hs hw h
      rcases validate_cases hc hs h with h | ⟨rfl, h, -⟩ | ⟨rfl, h'⟩ | ⟨b, rfl, rfl, h1, h2⟩
      · obtain ⟨i1, i2⟩ := ih h
        exact ⟨fun k hk => i1 k w hk.1 hk.2 hw, i2⟩
      · refine ⟨fun k => (by cases k), fun b hb => ?_⟩
        cases hb
        exact ⟨1, zero_le_one, le_rfl, root_one h, mem_exact.2 rfl⟩
      · exact ⟨fun _ => h', fun b hb => (by cases hb)⟩
      · refine ⟨fun k => (by cases k), fun b' hb => ?_⟩
        cases hb
        exact ⟨w, h1, h2, hw, hs b rfl⟩
    unfold root at h
    split at h
    · rename_i hc
      cases h
      refine ⟨fun k => (by cases k), fun b hb => ?_⟩
      cases hb
      exact ⟨0, le_rfl, zero_le_one, by unfold IsRoot; rw [hc, map_zero]; ring, mem_exact.2 rfl⟩
    rename_i hc
    split at h
    · rename_i ha
      split at h
      · rename_i hb
        cases h
        refine ⟨fun _ t _ _ ht => ?_, fun b hb => (by cases hb)⟩
        unfold IsRoot at ht
        rw [ha, hb, map_zero, zero_mul, zero_mul, zero_add, zero_add] at ht
        exact ne_zero hf hc ht
      rename_i hb
      split at h
      · rename_i hcb
        cases h
        refine ⟨fun k => (by cases k), fun b hb => ?_⟩
        cases hb
        exact ⟨1, zero_le_one, le_rfl, root_one (by rw [eval_one, ha, hcb]; ring), mem_exact.2 rfl⟩
      · obtain ⟨v1, v2⟩ := val hc (hB.linear hb n) ((linear_root hf ha hb).2 rfl) h
        refine ⟨fun k t h0 h1 ht => v1 k ?_, v2⟩
        rw [linear_root hf ha hb] at ht
        exact ht ▸ ⟨h0, h1⟩
    rename_i ha
    split at h
    · rename_i hd
      cases h
      exact ⟨fun _ t _ _ => no_root hf hd t, fun b hb => (by cases hb)⟩
    rename_i hd
    split at h
    · rename_i hd
      obtain ⟨v1, v2⟩ := val hc (hB.double ha n) ((double_root hf ha hd).2 rfl) h
      refine ⟨fun k t h0 h1 ht => v1 k ?_, v2⟩
      rw [double_root hf ha hd] at ht
      exact ht ▸ ⟨h0, h1⟩
    rename_i hd'
    have hd := disc_pos hf hd hd'
    split at h
    · cases h
    rename_i t0 h0
    split at h
    · cases h
    rename_i t1 h1
    obtain ⟨v1, v2⟩ := val hc (hB.plus ha hd n) ((two_roots hf ha hd).2 (.inl rfl)) h0
    obtain ⟨w1, w2⟩ := val hc (hB.minus ha hd n) ((two_roots hf ha hd).2 (.inr rfl)) h1
    cases h
    have cases' : smaller t0 t1 = t0 ∨ (smaller t0 t1 = t1) := by
      cases t0 <;> cases t1 <;> simp only [smaller, true_or, or_true]
      split <;> simp
    refine ⟨fun k t h0 h1 ht => ?_, fun b hb => ?_⟩
    · have hn : t0 = none ∧ t1 = none := by
        cases t0 <;> cases t1 <;> simp only [smaller] at k <;> simp at k ⊢
        split at k <;> cases k
      rcases (two_roots hf ha hd).1 ht with rfl | rfl
      · exact v1 hn.1 ⟨h0, h1⟩
      · exact w1 hn.2 ⟨h0, h1⟩
    · rcases cases' with k | k
      · exact v2 b (k ▸ hb)
      · exact w2 b (k ▸ hb)

/-- When the balls for the two roots are apart from each other then the result encloses the first root. -/
theorem first_partial (hf : StrictMono f) {B : RootBalls T ℝ} {p : Quadratic T} (hB : Enclosing f B p) {N : ℕ}
    (hA : p.a ≠ 0 → 0 < disc f p → Apart f B p N) {fuel n : ℕ} (hn : N ≤ n) {b : Ball ℝ}
    (h : root B p fuel n = some (some b)) {t : ℝ} (ht : FirstRoot f p t) : b.Mem t := by
  obtain ⟨t0, t1, tr, tf⟩ := ht
  by_cases hc : p.c = 0
  · cases fuel with
    | zero => cases h
    | succ fuel =>
      unfold root at h
      rw [if_pos hc] at h
      cases h
      rw [mem_exact]
      by_contra hne
      exact tf 0 le_rfl (lt_of_le_of_ne t0 (Ne.symm hne)) (by unfold IsRoot; rw [hc, map_zero]; ring)
  by_cases hu : ∀ s, IsRoot f p s → s = t
  · -- There is only one root.
    obtain ⟨-, h2⟩ := root_exists hf hB h
    obtain ⟨s, -, -, hs, hm⟩ := h2 b rfl
    exact hu s hs ▸ hm
  -- There are two roots.
  have ha : p.a ≠ 0 := by
    intro ha
    by_cases hb : p.b = 0
    · unfold IsRoot at tr
      rw [ha, hb, map_zero, zero_mul, zero_mul, zero_add, zero_add] at tr
      exact ne_zero hf hc tr
    · exact hu fun s hs => ((linear_root hf ha hb).1 hs).trans ((linear_root hf ha hb).1 tr).symm
  have hd1 : ¬ p.b * p.b - 4 * p.a * p.c < 0 := fun hd => no_root hf hd t tr
  have hd2 : p.b * p.b - 4 * p.a * p.c ≠ 0 := fun hd =>
    hu fun s hs => ((double_root hf ha hd).1 hs).trans ((double_root hf ha hd).1 tr).symm
  have hd := disc_pos hf hd1 hd2
  have hA := hA ha hd
  have hne := roots_ne hf ha hd
  -- The balls for the first root and the balls for the other root.
  let Of : ℝ → (ℕ → Option (Ball ℝ)) → Ball ℝ → Prop := fun w e b => b = Ball.exact w ∨ ∃ m ≥ N, e m = some b
  have key : ∀ {fuel n : ℕ} {b : Ball ℝ}, N ≤ n → root B p fuel n = some (some b) →
      (t = plusRoot f p ∧ Of t (B.plus p) b) ∨ (t = minusRoot f p ∧ Of t (B.minus p) b) := by
    intro fuel
    induction fuel with
    | zero => intro n b _ h; cases h
    | succ fuel ih =>
      intro n b hn h
      unfold root at h
      rw [if_neg hc, if_neg ha, if_neg hd1, if_neg hd2] at h
      split at h
      · cases h
      rename_i r0 h0
      split at h
      · cases h
      rename_i r1 h1
      rw [Option.some.injEq] at h
      have some' : root B p fuel (n + 1) ≠ some none := fun k => (root_exists hf hB k).1 rfl t t0 t1 tr
      -- An approximation of the first root.
      have good : ∀ {e : ℕ → Option (Ball ℝ)} {r : Option (Ball ℝ)}, (∀ b, e n = some b → b.Mem t) →
          (∀ s, IsRoot f p s → s ≠ t → ∀ b, e n = some b → ¬ b.Mem s) →
          p.validate (root B p fuel (n + 1)) (e n) = some r →
          root B p fuel (n + 1) = some r ∨ ∃ b, r = some b ∧ Of t e b := by
        intro e r hs ho h
        rcases validate_cases hc hs h with h | ⟨rfl, h, b, h1, h2⟩ | ⟨rfl, h'⟩ | ⟨b, rfl, h1, -⟩
        · exact .inl h
        · by_cases k : (1 : ℝ) = t
          · exact .inr ⟨_, rfl, .inl (by rw [k])⟩
          · exact absurd h2 (ho 1 (root_one h) k b h1)
        · exact absurd ⟨t0, t1⟩ h'
        · exact .inr ⟨b, rfl, .inr ⟨n, hn, h1⟩⟩
      -- An approximation of another root.
      have far : ∀ {e : ℕ → Option (Ball ℝ)} {r : Option (Ball ℝ)} {w : ℝ}, IsRoot f p w → w ≠ t →
          (∀ s, IsRoot f p s → s = t ∨ s = w) → (∀ b, e n = some b → b.Mem w) →
          p.validate (root B p fuel (n + 1)) (e n) = some r →
          root B p fuel (n + 1) = some r ∨ r = none ∨ r = some (Ball.exact t) ∧ t = 1 ∨
            ∃ b, r = some b ∧ Of w e b ∧ b.Mem w ∧ t < w := by
        intro e r w hw hwt ho hs h
        have later : 0 ≤ w → t < w := by
          intro k
          by_contra hlt
          exact tf w k (lt_of_le_of_ne (not_lt.1 hlt) hwt) hw
        rcases validate_cases hc hs h with h | ⟨rfl, h, b, h1, h2⟩ | ⟨rfl, h⟩ | ⟨b, rfl, h1, h2, -⟩
        · exact .inl h
        · rcases ho 1 (root_one h) with k | k
          · exact .inr (.inr (.inl ⟨by rw [k], k.symm⟩))
          · exact .inr (.inr (.inr ⟨_, rfl, .inl (by rw [k]), mem_exact.2 k.symm, later (by rw [← k]; exact zero_le_one)⟩))
        · exact .inr (.inl rfl)
        · exact .inr (.inr (.inr ⟨b, rfl, .inr ⟨n, hn, h1⟩, hs b h1, later h2⟩))
      have mem : ∀ {b}, (t = plusRoot f p ∧ Of t (B.plus p) b) ∨ (t = minusRoot f p ∧ Of t (B.minus p) b) → b.Mem t := by
        rintro b (⟨k, rfl | ⟨m, -, hm⟩⟩ | ⟨k, rfl | ⟨m, -, hm⟩⟩)
        · exact mem_exact.2 rfl
        · exact k ▸ hB.plus ha hd m b hm
        · exact mem_exact.2 rfl
        · exact k ▸ hB.minus ha hd m b hm
      have ih' : ∀ {r}, root B p fuel (n + 1) = some r → ∃ b, r = some b ∧
          ((t = plusRoot f p ∧ Of t (B.plus p) b) ∨ (t = minusRoot f p ∧ Of t (B.minus p) b)) := by
        intro r hr
        cases r with
        | none => exact absurd hr some'
        | some b => exact ⟨b, rfl, ih (by omega) hr⟩
      rcases (two_roots hf ha hd).1 tr with k | k
      · -- The first solution is the first root.
        have g : ∃ b, r0 = some b ∧ ((t = plusRoot f p ∧ Of t (B.plus p) b) ∨ (t = minusRoot f p ∧ Of t (B.minus p) b)) := by
          have ho : ∀ s, IsRoot f p s → s ≠ t → ∀ b, B.plus p n = some b → ¬ b.Mem s := by
            intro s hs hst b hb hm
            rcases (two_roots hf ha hd).1 hs with rfl | rfl
            · exact hst k.symm
            · exact hA.plus n hn b hb hm
          rcases good (e := B.plus p) (fun b hb => k ▸ hB.plus ha hd n b hb) ho h0 with g | ⟨b, g1, g2⟩
          · exact ih' g
          · exact ⟨b, g1, .inl ⟨k, g2⟩⟩
        obtain ⟨b0, rfl, g⟩ := g
        have m := far (e := B.minus p) ((two_roots hf ha hd).2 (.inr rfl)) (fun q => hne (k.symm.trans q.symm))
          (fun s hs => by rw [k]; exact (two_roots hf ha hd).1 hs) (hB.minus ha hd n) h1
        rcases m with m | rfl | ⟨rfl, -⟩ | ⟨b1, rfl, m1, m2, m3⟩
        · obtain ⟨b1, rfl, m⟩ := ih' m
          simp only [smaller] at h
          split at h <;> cases h <;> assumption
        · cases h; exact g
        · simp only [smaller] at h
          split at h <;> cases h
          · exact g
          · exact g
          · exact .inl ⟨k, .inl rfl⟩
        · simp only [smaller] at h
          split at h <;> cases h
          · exact g
          · exact g
          · rename_i hl
            exact absurd (lt_false hl (mem g) m2) (not_le.2 m3)
      · -- The second solution is the first root.
        have g : ∃ b, r1 = some b ∧ ((t = plusRoot f p ∧ Of t (B.plus p) b) ∨ (t = minusRoot f p ∧ Of t (B.minus p) b)) := by
          have ho : ∀ s, IsRoot f p s → s ≠ t → ∀ b, B.minus p n = some b → ¬ b.Mem s := by
            intro s hs hst b hb hm
            rcases (two_roots hf ha hd).1 hs with rfl | rfl
            · exact hA.minus n hn b hb hm
            · exact hst k.symm
          rcases good (e := B.minus p) (fun b hb => k ▸ hB.minus ha hd n b hb) ho h1 with g | ⟨b, g1, g2⟩
          · exact ih' g
          · exact ⟨b, g1, .inr ⟨k, g2⟩⟩
        obtain ⟨b1, rfl, g⟩ := g
        have m := far (e := B.plus p) ((two_roots hf ha hd).2 (.inl rfl)) (fun q => hne (q.trans k))
          (fun s hs => by rw [k]; exact ((two_roots hf ha hd).1 hs).symm) (hB.plus ha hd n) h0
        rcases m with m | rfl | ⟨rfl, -⟩ | ⟨b0, rfl, m1, m2, m3⟩
        · obtain ⟨b1, rfl, m⟩ := ih' m
          simp only [smaller] at h
          split at h <;> cases h <;> assumption
        · cases h; exact g
        · simp only [smaller] at h
          split at h <;> cases h
          · exact .inr ⟨k, .inl rfl⟩
          · exact .inr ⟨k, .inl rfl⟩
          · exact g
        · simp only [smaller] at h
          split at h <;> cases h
          · rename_i hl
            exfalso
            obtain ⟨x, x0, x1⟩ := lt_none hl
            have g := (g.resolve_left fun q => hne (q.1.symm.trans k)).2
            rcases m1 with rfl | ⟨m, hm, m1⟩ <;> rcases g with rfl | ⟨l, hl, g⟩
            · rw [mem_exact] at x0 x1
              exact hne (x0.symm.trans (x1.trans k))
            · rw [mem_exact] at x0
              exact hA.minus l hl _ g (x0 ▸ x1)
            · rw [mem_exact] at x1
              exact hA.plus m hm _ m1 (by rw [← k, ← x1]; exact x0)
            · exact hA.disjoint m hm l hl _ _ m1 g x ⟨x0, x1⟩
          · rename_i hl
            exact absurd (lt_true hl m2 (mem g)) (not_lt.2 m3.le)
          · exact g
  rcases key hn h with ⟨k, rfl | ⟨m, -, hm⟩⟩ | ⟨k, rfl | ⟨m, -, hm⟩⟩
  · exact mem_exact.2 rfl
  · exact k ▸ hB.plus ha hd m b hm
  · exact mem_exact.2 rfl
  · exact k ▸ hB.minus ha hd m b hm

/-- Small balls can be validated. -/
theorem settles {p : Quadratic T} (hf : StrictMono f) (hc : p.c ≠ 0) {w : ℝ} (hw : IsRoot f p w) {e : ℕ → Option (Ball ℝ)}
    (he : ∀ n b, e n = some b → b.Mem w) (hs : Shrinking e) : ∃ N, ∀ n ≥ N, ∀ again, ∃ r, p.validate again (e n) = some r := by
  have h0 : w ≠ 0 := by
    rintro rfl
    unfold IsRoot at hw
    exact ne_zero hf hc (by linarith)
  have h1 : w ≠ 1 ∨ p.eval 1 = 0 := by
    by_cases k : w = 1
    · right
      subst k
      rw [eval_one]
      apply hf.injective
      rw [map_zero, map_add, map_add]
      unfold IsRoot at hw
      linarith
    · exact .inl k
  have hw0 := abs_pos.2 h0
  by_cases hw1 : w = 1
  · obtain ⟨N, hN⟩ := hs (|w| / 2) (by positivity)
    refine ⟨N, fun n hn again => ?_⟩
    obtain ⟨s, hs, hr⟩ := hN n hn
    rw [hs]
    exact validate_some again (he n s hs) h0 h1 (by linarith) fun k => absurd hw1 k
  · have hw1' : 0 < |w - 1| := abs_pos.2 (sub_ne_zero.2 hw1)
    obtain ⟨N, hN⟩ := hs (min |w| |w - 1| / 2) (by positivity)
    refine ⟨N, fun n hn again => ?_⟩
    obtain ⟨s, hs, hr⟩ := hN n hn
    rw [hs]
    exact validate_some again (he n s hs) h0 h1 (by linarith [min_le_left |w| |w - 1|]) fun _ => by linarith [min_le_right |w| |w - 1|]

theorem validate_total {p : Quadratic T} (r : Option (Ball ℝ)) (s : Option (Ball ℝ)) : ∃ r', p.validate (some r) s = some r' := by
  unfold validate
  split
  · split <;> exact ⟨_, rfl⟩
  · split
    · split <;> exact ⟨_, rfl⟩
    · split
      · exact ⟨_, rfl⟩
      · split <;> exact ⟨_, rfl⟩

/-- When the arithmetic gets arbitrarily precise then the search for a root terminates. -/
theorem terminates (hf : StrictMono f) {B : RootBalls T ℝ} {p : Quadratic T} (hB : Enclosing f B p) (hR : Refining f B p) :
    ∃ N, ∀ fuel > N, ∀ n, ∃ r, root B p fuel n = some r := by
  have step : ∃ N, ∀ n ≥ N, ∀ fuel, ∃ r, root B p (fuel + 1) n = some r := by
    unfold root
    by_cases hc : p.c = 0
    · exact ⟨0, fun n _ fuel => by rw [if_pos hc]; exact ⟨_, rfl⟩⟩
    by_cases ha : p.a = 0
    · by_cases hb : p.b = 0
      · exact ⟨0, fun n _ fuel => by rw [if_neg hc, if_pos ha, if_pos hb]; exact ⟨_, rfl⟩⟩
      by_cases hcb : p.c = -p.b
      · exact ⟨0, fun n _ fuel => by rw [if_neg hc, if_pos ha, if_neg hb, if_pos hcb]; exact ⟨_, rfl⟩⟩
      obtain ⟨N, hN⟩ := settles hf hc ((linear_root hf ha hb).2 rfl) (hB.linear hb) (hR.linear hb)
      exact ⟨N, fun n hn fuel => by rw [if_neg hc, if_pos ha, if_neg hb, if_neg hcb]; exact hN n hn _⟩
    by_cases hd1 : p.b * p.b - 4 * p.a * p.c < 0
    · exact ⟨0, fun n _ fuel => by rw [if_neg hc, if_neg ha, if_pos hd1]; exact ⟨_, rfl⟩⟩
    by_cases hd2 : p.b * p.b - 4 * p.a * p.c = 0
    · obtain ⟨N, hN⟩ := settles hf hc ((double_root hf ha hd2).2 rfl) (hB.double ha) (hR.double ha)
      exact ⟨N, fun n hn fuel => by rw [if_neg hc, if_neg ha, if_neg hd1, if_pos hd2]; exact hN n hn _⟩
    have hd := disc_pos hf hd1 hd2
    obtain ⟨N, hN⟩ := settles hf hc ((two_roots hf ha hd).2 (.inl rfl)) (hB.plus ha hd) (hR.plus ha hd)
    obtain ⟨M, hM⟩ := settles hf hc ((two_roots hf ha hd).2 (.inr rfl)) (hB.minus ha hd) (hR.minus ha hd)
    refine ⟨max N M, fun n hn fuel => ?_⟩
    obtain ⟨r, hr⟩ := hN n (le_trans (le_max_left _ _) hn) (root B p fuel (n + 1))
    obtain ⟨r', hr'⟩ := hM n (le_trans (le_max_right _ _) hn) (root B p fuel (n + 1))
    rw [if_neg hc, if_neg ha, if_neg hd1, if_neg hd2, hr, hr']
    exact ⟨_, rfl⟩
  obtain ⟨N, hN⟩ := step
  have key : ∀ fuel n, N < fuel + n → fuel ≠ 0 → ∃ r, root B p fuel n = some r := by
    intro fuel
    induction fuel with
    | zero => intro n _ h; exact absurd rfl h
    | succ fuel ih =>
      intro n hn _
      by_cases h : N ≤ n
      · exact hN n h fuel
      obtain ⟨r, hr⟩ := ih (n + 1) (by omega) (by omega)
      unfold root
      rw [hr]
      obtain ⟨r0, h0⟩ := validate_total (p := p) r (B.plus p n)
      obtain ⟨r1, h1⟩ := validate_total (p := p) r (B.minus p n)
      rw [h0, h1]
      split
      · exact ⟨_, rfl⟩
      split
      · split
        · exact ⟨_, rfl⟩
        split
        · exact ⟨_, rfl⟩
        · exact validate_total _ _
      split
      · exact ⟨_, rfl⟩
      split
      · exact validate_total _ _
      · exact ⟨_, rfl⟩
  exact ⟨N, fun fuel hf n => key fuel n (by omega) (by omega)⟩

theorem near {b : Ball ℝ} {x y : ℝ} (hx : b.Mem x) (hy : b.Mem y) : |x - y| ≤ 2 * b.rad := by
  rw [mem_iff] at hx hy
  rw [abs_le]
  constructor <;> linarith [hx.1, hx.2, hy.1, hy.2]

/-- When the arithmetic gets arbitrarily precise then the balls are apart eventually. -/
theorem apart {B : RootBalls T ℝ} {p : Quadratic T} (hf : StrictMono f) (hB : Enclosing f B p) (hR : Refining f B p) (ha : p.a ≠ 0)
    (hd : 0 < disc f p) : ∃ N, Apart f B p N := by
  have hne : 0 < |plusRoot f p - minusRoot f p| := abs_pos.2 (sub_ne_zero.2 (roots_ne hf ha hd))
  obtain ⟨N, hN⟩ := hR.plus ha hd (|plusRoot f p - minusRoot f p| / 4) (by positivity)
  obtain ⟨M, hM⟩ := hR.minus ha hd (|plusRoot f p - minusRoot f p| / 4) (by positivity)
  have hN' : ∀ n ≥ max N M, ∀ s, B.plus p n = some s → s.rad < |plusRoot f p - minusRoot f p| / 4 := by
    intro n hn s hs
    obtain ⟨s', h1, h2⟩ := hN n (le_trans (le_max_left _ _) hn)
    rw [hs] at h1
    cases h1
    exact h2
  have hM' : ∀ n ≥ max N M, ∀ s, B.minus p n = some s → s.rad < |plusRoot f p - minusRoot f p| / 4 := by
    intro n hn s hs
    obtain ⟨s', h1, h2⟩ := hM n (le_trans (le_max_right _ _) hn)
    rw [hs] at h1
    cases h1
    exact h2
  refine ⟨max N M, fun n hn s hs hm => ?_, fun n hn s hs hm => ?_, fun n hn m hm s s' hs hs' x hx => ?_⟩
  · linarith [near (hB.plus ha hd n s hs) hm, hN' n hn s hs]
  · linarith [near hm (hB.minus ha hd n s hs), hM' n hn s hs]
  · have h1 := near (hB.plus ha hd n s hs) hx.1
    have h2 := near hx.2 (hB.minus ha hd m s' hs')
    have h3 := abs_sub_le (plusRoot f p) x (minusRoot f p)
    linarith [hN' n hn s hs, hM' m hm s' hs']

/-- When the arithmetic gets arbitrarily precise then the result encloses the first root eventually. -/
theorem eventually_first (hf : StrictMono f) {B : RootBalls T ℝ} {p : Quadratic T} (hB : Enclosing f B p) (hR : Refining f B p)
    {t : ℝ} (ht : FirstRoot f p t) : ∃ N, ∀ n ≥ N, ∀ fuel > N, ∃ b, root B p fuel n = some (some b) ∧ b.Mem t := by
  obtain ⟨N, hN⟩ := terminates hf hB hR
  have hA : ∃ M, p.a ≠ 0 → 0 < disc f p → Apart f B p M := by
    by_cases h : p.a ≠ 0 ∧ 0 < disc f p
    · obtain ⟨M, hM⟩ := apart hf hB hR h.1 h.2
      exact ⟨M, fun _ _ => hM⟩
    · exact ⟨0, fun h1 h2 => absurd ⟨h1, h2⟩ h⟩
  obtain ⟨M, hM⟩ := hA
  refine ⟨max N M, fun n hn fuel hfuel => ?_⟩
  obtain ⟨r, hr⟩ := hN fuel (lt_of_le_of_lt (le_max_left _ _) hfuel) n
  cases r with
  | none => exact absurd ht.2.2.1 ((root_exists hf hB hr).1 rfl t ht.1 ht.2.1)
  | some b => exact ⟨b, hr, first_partial hf hB hM (le_trans (le_max_right _ _) hn) hr ht⟩

/-! ### The first root is not enclosed if the balls meet -/

/-- A ball of radius `r` at the first precision, then exact balls. -/
noncomputable def rough (r : ℝ) (hr : 0 ≤ r) (x : ℝ) (n : ℕ) : Option (Ball ℝ) := some (if n = 0 then ⟨x, r, hr⟩ else Ball.exact x)

theorem rough_mem {r : ℝ} {hr : 0 ≤ r} {x : ℝ} {n : ℕ} {s : Ball ℝ} (h : rough r hr x n = some s) : s.Mem x := by
  unfold rough at h
  cases h
  split
  · unfold Ball.Mem
    simpa using hr
  · exact mem_exact.2 rfl

theorem rough_shrinking {r : ℝ} {hr : 0 ≤ r} {x : ℝ} : Shrinking (rough r hr x) := by
  intro ε hε
  refine ⟨1, fun n hn => ⟨_, rfl, ?_⟩⟩
  rw [if_neg (by omega)]
  exact hε

/-- Arithmetic that is exact after the first precision. -/
noncomputable def roughBalls : RootBalls ℤ ℝ where
  linear p := rough 1 zero_le_one (-(p.c : ℝ) / p.b)
  double p := rough 1 zero_le_one (-(p.b : ℝ) / (2 * p.a))
  plus p := rough (1 / 8) (by norm_num) (plusRoot (Int.castRingHom ℝ) p)
  minus p := rough (3 / 16) (by norm_num) (minusRoot (Int.castRingHom ℝ) p)

theorem rough_enclosing (p : Quadratic ℤ) : Enclosing (Int.castRingHom ℝ) roughBalls p :=
  ⟨fun _ _ _ h => rough_mem h, fun _ _ _ h => rough_mem h, fun _ _ _ _ h => rough_mem h, fun _ _ _ _ h => rough_mem h⟩

theorem rough_refining (p : Quadratic ℤ) : Refining (Int.castRingHom ℝ) roughBalls p :=
  ⟨fun _ => rough_shrinking, fun _ => rough_shrinking, fun _ _ => rough_shrinking, fun _ _ => rough_shrinking⟩

theorem sample_disc : disc (Int.castRingHom ℝ) ⟨8, -6, 1⟩ = 2 * 2 := by
  unfold disc
  norm_num

theorem sample_plus : plusRoot (Int.castRingHom ℝ) ⟨8, -6, 1⟩ = 1 / 2 := by
  unfold plusRoot
  rw [sample_disc, Real.sqrt_mul_self (by norm_num)]
  norm_num

theorem sample_minus : minusRoot (Int.castRingHom ℝ) ⟨8, -6, 1⟩ = 1 / 4 := by
  unfold minusRoot
  rw [sample_disc, Real.sqrt_mul_self (by norm_num)]
  norm_num

theorem sample_first : FirstRoot (Int.castRingHom ℝ) ⟨8, -6, 1⟩ (1 / 4) := by
  refine ⟨by norm_num, by norm_num, by unfold IsRoot; norm_num, fun s h0 h1 hs => ?_⟩
  rcases (two_roots Int.cast_strictMono (by norm_num) (by rw [sample_disc]; norm_num)).1 hs with h | h
  · rw [sample_plus] at h
    linarith
  · rw [sample_minus] at h
    linarith

/-- The polynomial `8t² - 6t + 1` has the roots 1/4 and 1/2. When the balls for the roots meet, then the result can be a ball for
the second root that does not contain the first one. -/
theorem misses : ∃ b, root roughBalls ⟨8, -6, 1⟩ 1 0 = some (some b) ∧ FirstRoot (Int.castRingHom ℝ) ⟨8, -6, 1⟩ (1 / 4) ∧
    Enclosing (Int.castRingHom ℝ) roughBalls ⟨8, -6, 1⟩ ∧ ¬ b.Mem (1 / 4) := by
  refine ⟨⟨1 / 2, 1 / 8, by norm_num⟩, ?_, sample_first, rough_enclosing _, ?_⟩
  · unfold root
    rw [if_neg (by norm_num), if_neg (by norm_num), if_neg (by norm_num), if_neg (by norm_num)]
    have h1 : roughBalls.plus ⟨8, -6, 1⟩ 0 = some ⟨1 / 2, 1 / 8, by norm_num⟩ := by
      change some _ = _
      simp only [if_true, sample_plus]
    have h2 : roughBalls.minus ⟨8, -6, 1⟩ 0 = some ⟨1 / 4, 3 / 16, by norm_num⟩ := by
      change some _ = _
      simp only [if_true, sample_minus]
    rw [h1, h2]
    have v1 : ∀ again, validate (⟨8, -6, 1⟩ : Quadratic ℤ) again (some ⟨1 / 2, 1 / 8, by norm_num⟩) =
        some (some (⟨1 / 2, 1 / 8, by norm_num⟩ : Ball ℝ)) := by
      intro again
      norm_num [validate, Ball.lt, Ball.gt, Ball.exact]
    have v2 : ∀ again, validate (⟨8, -6, 1⟩ : Quadratic ℤ) again (some ⟨1 / 4, 3 / 16, by norm_num⟩) =
        some (some (⟨1 / 4, 3 / 16, by norm_num⟩ : Ball ℝ)) := by
      intro again
      norm_num [validate, Ball.lt, Ball.gt, Ball.exact]
    rw [v1, v2]
    norm_num [smaller, Ball.lt]
  · rw [mem_iff]
    norm_num

/-- From the second precision on, the balls are apart. -/
example : Apart (Int.castRingHom ℝ) roughBalls ⟨8, -6, 1⟩ 1 ∧ FirstRoot (Int.castRingHom ℝ) ⟨8, -6, 1⟩ (1 / 4) ∧
    Enclosing (Int.castRingHom ℝ) roughBalls ⟨8, -6, 1⟩ ∧ Refining (Int.castRingHom ℝ) roughBalls ⟨8, -6, 1⟩ := by
  have e1 : ∀ n ≥ 1, ∀ s, roughBalls.plus ⟨8, -6, 1⟩ n = some s → s = Ball.exact (1 / 2) := by
    intro n hn s hs
    change some _ = _ at hs
    rw [if_neg (by omega), sample_plus] at hs
    exact (Option.some.inj hs).symm
  have e2 : ∀ n ≥ 1, ∀ s, roughBalls.minus ⟨8, -6, 1⟩ n = some s → s = Ball.exact (1 / 4) := by
    intro n hn s hs
    change some _ = _ at hs
    rw [if_neg (by omega), sample_minus] at hs
    exact (Option.some.inj hs).symm
  refine ⟨⟨fun n hn s hs => ?_, fun n hn s hs => ?_, fun n hn m hm s s' hs hs' x => ?_⟩, sample_first, rough_enclosing _,
    rough_refining _⟩
  · rw [e1 n hn s hs, mem_exact, sample_minus]
    norm_num
  · rw [e2 n hn s hs, mem_exact, sample_plus]
    norm_num
  · rw [e1 n hn s hs, e2 m hm s' hs', mem_exact, mem_exact]
    rintro ⟨rfl, h⟩
    norm_num at h

end Verif.C151
