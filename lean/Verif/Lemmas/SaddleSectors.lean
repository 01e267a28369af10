import Verif.Lemmas.SaddleConnections

/-!
# Sectors between two directions at a vertex
-/

set_option linter.unusedSectionVars false

namespace Verif

open Verif Spec Tri FlatTri Vec Real Function

variable {T : Type} [CommRing T] [LinearOrder T] [IsStrictOrderedRing T]
variable {K : Type} [Field K] [LinearOrder K] [IsStrictOrderedRing K] (A : Option (Approx T K))
variable {f : T →+* ℝ} {S : FlatTri T} {V : Finset HE} {θ : HE → ℝ}

namespace FlatTri

/-- The number of half edges at a vertex. -/
noncomputable abbrev degree (S : FlatTri T) (e : HE) : ℕ := minimalPeriod S.tri.nextAtVertex e

theorem Around.degree_pos (h : Around f S V θ) (e : HE) : 0 < degree S e :=
  minimalPeriod_pos_of_mem_periodicPts (Perm.Orb.periodic h.flat.coh.hv e)

theorem Around.arc_degree (h : Around f S V θ) {e : HE} (he : e ∈ V) : arc S θ e (degree S e) = ∑ x ∈ V, θ x := by
  obtain ⟨x, hx⟩ := h.orbit
  have ho := (hx e).1 he
  have hV' : ∀ y, y ∈ V ↔ S.tri.vertices.Orb e y := fun y =>
    (hx y).trans ⟨fun hy => (Perm.Orb.symm h.flat.coh.hv ho).trans hy, fun hy => ho.trans hy⟩
  rw [← Perm.orbit_sum h.flat.coh.hv hV' θ]
  rfl

theorem Around.steps (h : Around f S V θ) {e e' : HE} (he : e ∈ V) (he' : e' ∈ V) :
    ∃ n < degree S e, S.tri.nextAtVertex^[n] e = e' := by
  obtain ⟨k, hk⟩ := h.reach he he'
  exact ⟨k % degree S e, Nat.mod_lt _ (h.degree_pos e), by rw [iterate_mod_minimalPeriod_eq, hk]⟩

theorem Around.arc_le (h : Around f S V θ) {e : HE} (he : e ∈ V) {m n : ℕ} (hmn : m < n) :
    arc S θ e m + θ (S.tri.nextAtVertex^[m] e) ≤ arc S θ e n := by
  rw [← arc_succ]
  rcases (Nat.succ_le_of_lt hmn).eq_or_lt with h1 | h1
  · rw [← h1]
  · exact (h.arc_lt he h1).le

theorem Around.steps_unique {e : HE} {m n : ℕ} (hm : m < degree S e) (hn : n < degree S e)
    (hmn : S.tri.nextAtVertex^[m] e = S.tri.nextAtVertex^[n] e) : m = n :=
  (iterate_eq_iterate_iff_of_lt_minimalPeriod hm hn).1 hmn

/-- The first turn from a direction to another one. -/
theorem Around.firstTurn (h : Around f S V θ) {e e' : HE} (he : e ∈ V) {σ τ : ℝ} (hσ : 0 ≤ σ ∧ σ < θ e)
    (hτ : 0 ≤ τ ∧ τ < θ e') {n : ℕ} (hn : n < degree S e) (hne : S.tri.nextAtVertex^[n] e = e') :
    TurnsTo S θ e σ (if n = 0 ∧ τ < σ then ∑ x ∈ V, θ x + τ - σ else arc S θ e n + τ - σ) e' τ ∧
      ∀ α, TurnsTo S θ e σ α e' τ → (if n = 0 ∧ τ < σ then ∑ x ∈ V, θ x + τ - σ else arc S θ e n + τ - σ) ≤ α := by
  have hp := h.degree_pos e
  have h1 := h.arc_le he hp
  rw [arc_zero, h.arc_degree he, iterate_zero_apply, zero_add] at h1
  have key : ∀ m, S.tri.nextAtVertex^[m] e = e' → m = n ∨ arc S θ e n + ∑ x ∈ V, θ x ≤ arc S θ e m := by
    intro m hm
    rcases lt_trichotomy m n with k | k | k
    · exact absurd (Around.steps_unique (k.trans hn) hn (hm.trans hne.symm)) k.ne
    · exact .inl k
    · exact .inr (h.between he k (hne.trans hm.symm))
  split_ifs with hc
  · obtain ⟨rfl, hc⟩ := hc
    rw [iterate_zero_apply] at hne
    subst hne
    refine ⟨⟨by linarith, degree S e, iterate_minimalPeriod, by rw [h.arc_degree he]; ring⟩, ?_⟩
    rintro α ⟨h0, m, hm, hα⟩
    rcases key m hm with rfl | k
    · rw [arc_zero] at hα
      linarith
    · rw [arc_zero] at k
      linarith
  · refine ⟨⟨?_, n, hne, by ring⟩, ?_⟩
    · rcases Nat.eq_zero_or_pos n with rfl | hn0
      · rw [arc_zero]
        have : ¬ τ < σ := fun k => hc ⟨rfl, k⟩
        linarith
      · have := h.arc_le he hn0
        rw [arc_zero, iterate_zero_apply] at this
        linarith
    · rintro α ⟨h0, m, hm, hα⟩
      rcases key m hm with rfl | k
      · linarith
      · linarith

/-- Walking around a vertex. -/
theorem meets_eq {b e : HE} {j : ℕ} : ∀ {walk : HE}, (∀ i < j, S.tri.nextAtVertex^[i] walk ≠ b ∧ S.tri.nextAtVertex^[i] walk ≠ e) →
    (S.tri.nextAtVertex^[j] walk = b ∨ S.tri.nextAtVertex^[j] walk = e) → ∀ fuel > j,
    SaddleConnections.meets S b e fuel walk = some (decide (S.tri.nextAtVertex^[j] walk ≠ b)) := by
  induction j with
  | zero =>
    intro walk _ h2 fuel hf
    obtain ⟨fuel, rfl⟩ := Nat.exists_eq_add_of_lt hf
    rw [iterate_zero_apply] at *
    rw [zero_add]
    unfold SaddleConnections.meets
    split_ifs with h3 h4
    · simp [h3]
    · simp [h3]
    · exact absurd h2 (by tauto)
  | succ j ih =>
    intro walk h1 h2 fuel hf
    obtain ⟨fuel, rfl⟩ : ∃ k, fuel = k + 1 := ⟨fuel - 1, by omega⟩
    have h0 := h1 0 (by omega)
    rw [iterate_zero_apply] at h0
    unfold SaddleConnections.meets
    rw [if_neg h0.1, if_neg h0.2, iterate_succ_apply]
    exact ih (fun i hi => h1 (i + 1) (by omega)) h2 fuel (by omega)

/-- Whether one gets to `e` before one gets to `b`. -/
theorem Around.meets (h : Around f S V θ) {b c e : HE} {m n : ℕ} (hm : m < degree S b)
    (hn : n < degree S b) (hc : S.tri.nextAtVertex^[m] b = c) (he : S.tri.nextAtVertex^[n] b = e) (hm0 : 0 < m) (hn0 : 0 < n) (hmn : m ≠ n) :
    ∀ fuel > degree S b, SaddleConnections.meets S b e fuel c = some (decide (m < n)) := by
  intro fuel hf
  have hit : ∀ i, S.tri.nextAtVertex^[i] c = S.tri.nextAtVertex^[m + i] b := by
    intro i
    rw [← hc, ← iterate_add_apply, add_comm]
  have hb : ∀ i, 0 < i → i < degree S b → S.tri.nextAtVertex^[i] b ≠ b := by
    intro i h0 h1 hc
    exact h0.ne' (Around.steps_unique h1 (by omega) (n := 0) hc)
  by_cases hlt : m < n
  · rw [meets_eq (j := n - m) _ _ fuel (by omega)]
    · rw [hit, show m + (n - m) = n by omega, decide_eq_true hlt, decide_eq_true (hb n hn0 hn)]
    · intro i hi
      rw [hit]
      refine ⟨hb _ (by omega) (by omega), fun hc => ?_⟩
      have := Around.steps_unique (by omega) hn (hc.trans he.symm)
      omega
    · right
      rw [hit, show m + (n - m) = n by omega, he]
  · rw [meets_eq (j := degree S b - m) _ _ fuel (by omega)]
    · rw [hit, show m + (degree S b - m) = degree S b by omega, iterate_minimalPeriod, decide_eq_false hlt]
      simp
    · intro i hi
      rw [hit]
      refine ⟨hb _ (by omega) (by omega), fun hc => ?_⟩
      have := Around.steps_unique (by omega) hn (hc.trans he.symm)
      omega
    · left
      rw [hit, show m + (degree S b - m) = degree S b by omega, iterate_minimalPeriod]

theorem Around.inCorner_unique (h : Around f S V θ) {e : HE} (he : e ∈ V) {v : Vec T} {σ σ' : ℝ}
    (h1 : InCorner f S θ e σ v) (h2 : InCorner f S θ e σ' v) : σ = σ' := by
  have hp := (h.pos he).2
  have := pi_pos
  exact Turns.unique (h.vec_ne he) ⟨h1.1, by linarith [h1.2.1]⟩ ⟨h2.1, by linarith [h2.2.1]⟩ h1.2.2 h2.2.2

theorem Around.betweenAround_iff (h : Around f S V θ) {b e c : HE × Vec T} (hb : b.1 ∈ V)
    {σ τ ρ : ℝ} (hσ : InCorner f S θ b.1 σ b.2) (hτ : InCorner f S θ e.1 τ e.2) (hρ : InCorner f S θ c.1 ρ c.2)
    {m n : ℕ} (hm : m < degree S b.1) (hn : n < degree S b.1) (hc : S.tri.nextAtVertex^[m] b.1 = c.1)
    (he : S.tri.nextAtVertex^[n] b.1 = e.1) :
    BetweenAround f S θ b e c ↔
      (if m = 0 ∧ ρ < σ then ∑ x ∈ V, θ x + ρ - σ else arc S θ b.1 m + ρ - σ) <
        (if n = 0 ∧ τ < σ then ∑ x ∈ V, θ x + τ - σ else arc S θ b.1 n + τ - σ) ∨
      (if n = 0 ∧ τ < σ then ∑ x ∈ V, θ x + τ - σ else arc S θ b.1 n + τ - σ) = 0 ∧
        (if m = 0 ∧ ρ < σ then ∑ x ∈ V, θ x + ρ - σ else arc S θ b.1 m + ρ - σ) = 0 := by
  obtain ⟨c1, c2⟩ := h.firstTurn hb ⟨hσ.1, hσ.2.1⟩ ⟨hρ.1, hρ.2.1⟩ hm hc
  obtain ⟨e1, e2⟩ := h.firstTurn hb ⟨hσ.1, hσ.2.1⟩ ⟨hτ.1, hτ.2.1⟩ hn he
  have hcV : c.1 ∈ V := hc ▸ h.iterate_mem hb m
  have heV : e.1 ∈ V := he ▸ h.iterate_mem hb n
  set F := if m = 0 ∧ ρ < σ then ∑ x ∈ V, θ x + ρ - σ else arc S θ b.1 m + ρ - σ
  set G := if n = 0 ∧ τ < σ then ∑ x ∈ V, θ x + τ - σ else arc S θ b.1 n + τ - σ
  constructor
  · rintro ⟨σ', τ', ρ', h1, h2, h3, -, β, h4, h5⟩
    obtain rfl := h.inCorner_unique hb hσ h1
    obtain rfl := h.inCorner_unique heV hτ h2
    obtain rfl := h.inCorner_unique hcV hρ h3
    have h6 := c2 β h4
    rcases h5 G e1 with h7 | ⟨h7, h8⟩
    · exact .inl (by linarith)
    · exact .inr ⟨h7, le_antisymm (by linarith) c1.1⟩
  · intro hFG
    refine ⟨σ, τ, ρ, hσ, hτ, hρ, ⟨G, e1⟩, F, c1, fun α hα => ?_⟩
    have h6 := e2 α hα
    rcases hFG with k | ⟨k1, k2⟩
    · exact .inl (by linarith)
    · rcases (k1 ▸ h6 : 0 ≤ α).eq_or_lt with h7 | h7
      · exact .inr ⟨h7.symm, k2⟩
      · exact .inl (by linarith)

end FlatTri

namespace SaddleConnections

open Classical in
/-- The sectors between two directions. -/
theorem between_spec (hc : Cor f S θ) (h : Around f S V θ) {s : Sector T} {x y : ℝ} (hs : Ok f S θ s x y)
    (hsV : s.source ∈ V) {b e : HE × Vec T} (hb : b.1 ∈ V) (he : e.1 ∈ V) {σ τ : ℝ}
    (hσ : InCorner f S θ b.1 σ b.2) (hτ : InCorner f S θ e.1 τ e.2) (hbs : b.1 < S.tri.size) (hb0 : b.2 ≠ 0) (he0 : e.2 ≠ 0) :
    ∀ fuel ≥ degree S b.1 + 1, ∃ l, between A false S b e fuel s = some (.ok l) ∧
      (∀ t ∈ l, t.source = s.source ∧ ∃ x y, Ok f S θ t x y) ∧
      ∀ v ρ, InCorner f S θ s.source ρ v → v ≠ 0 →
        l.countP (has A (s.source, v)) = if has A (s.source, v) s = true ∧ BetweenAround f S θ b e (s.source, v) then 1 else 0 := by
  intro fuel hfuel
  have hpi := pi_pos
  have at_ : ∀ {e : HE} {v : Vec T} {ρ : ℝ}, e ∈ V → v ≠ 0 → InCorner f S θ e ρ v → At f (S.vec e) v ρ := by
    intro e v ρ he hv hρ
    exact ⟨hv, hρ.1, by linarith [hρ.2.1, (h.pos he).2], hρ.2.2⟩
  obtain ⟨m, hm, hms⟩ := h.steps hb hsV
  obtain ⟨n, hn, hne⟩ := h.steps hb he
  have hm0 : m = 0 ↔ s.source = b.1 := by
    constructor
    · rintro rfl; exact hms.symm
    · intro k
      exact Around.steps_unique hm (h.degree_pos _) (by rw [hms, k]; rfl)
  have hn0 : n = 0 ↔ e.1 = b.1 := by
    constructor
    · rintro rfl; exact hne.symm
    · intro k
      exact Around.steps_unique hn (h.degree_pos _) (by rw [hne, k]; rfl)
  have hmn : m = n ↔ s.source = e.1 := by
    constructor
    · rintro rfl; rw [← hms, hne]
    · intro k
      exact Around.steps_unique hm hn (by rw [hms, hne, k])
  have iff := fun {v : Vec T} {ρ : ℝ} (hρ : InCorner f S θ s.source ρ v) =>
    h.betweenAround_iff (c := (s.source, v)) hb hσ hτ hρ hm hn hms hne
  have ps := h.pos hsV
  have pb := h.pos hb
  have pe := h.pos he
  have am := h.arc_le hb hm
  have an := h.arc_le hb hn
  rw [hms, h.arc_degree hb] at am
  rw [hne, h.arc_degree hb] at an
  have a0m : m ≠ 0 → θ b.1 ≤ arc S θ b.1 m := fun k => by
    have := h.arc_le hb (Nat.pos_of_ne_zero k)
    rwa [arc_zero, zero_add] at this
  have a0n : n ≠ 0 → θ b.1 ≤ arc S θ b.1 n := fun k => by
    have := h.arc_le hb (Nat.pos_of_ne_zero k)
    rwa [arc_zero, zero_add] at this
  have aV := h.arc_le hb (h.degree_pos b.1)
  rw [arc_zero, h.arc_degree hb, iterate_zero_apply, zero_add] at aV
  have keep : ∀ (P : Prop) [Decidable P], (∀ v ρ, InCorner f S θ s.source ρ v → (BetweenAround f S θ b e (s.source, v) ↔ P)) →
      ∀ v ρ, InCorner f S θ s.source ρ v → v ≠ 0 → (if P then [s] else []).countP (has A (s.source, v)) =
        if has A (s.source, v) s = true ∧ BetweenAround f S θ b e (s.source, v) then 1 else 0 := by
    intro P _ hP v ρ hρ _
    rw [hP v ρ hρ]
    by_cases k : P
    · simp [k, List.countP_cons]
    · simp [k]
  have keepOk : ∀ (P : Prop) [Decidable P], ∀ t ∈ (if P then [s] else []), t.source = s.source ∧ ∃ x y, Ok f S θ t x y := by
    intro P _ t ht
    split_ifs at ht
    · rw [List.mem_singleton] at ht
      subst ht
      exact ⟨rfl, _, _, hs⟩
    · simp at ht
  have ref : ∀ {b' e' : Vec T} {β ε : ℝ}, At f (S.vec s.source) b' β → At f (S.vec s.source) e' ε →
      (∀ v ρ, InCorner f S θ s.source ρ v → (BetweenAround f S θ b e (s.source, v) ↔ Cyc β ε ρ)) →
      ∃ l, refine A false S s b' e' = .ok l ∧
      (∀ t ∈ l, t.source = s.source ∧ ∃ x y, Ok f S θ t x y) ∧
      ∀ v ρ, InCorner f S θ s.source ρ v → v ≠ 0 →
        l.countP (has A (s.source, v)) = if has A (s.source, v) s = true ∧ BetweenAround f S θ b e (s.source, v) then 1 else 0 := by
    intro b' e' β ε hb' he' hB
    obtain ⟨l, h1, h2, h3⟩ := refine_spec A hc hs hb' he'
    refine ⟨l, h1, h2, fun v ρ hρ hv => ?_⟩
    have hav := at_ hsV hv hρ
    rw [h3 v ρ hav hρ.2.1]
    refine if_congr ?_ rfl rfl
    rw [hs.has A hc hav hρ.2.1, decide_eq_true_eq, hB v ρ hρ]
  unfold between
  by_cases hbe : b.1 = e.1
  · have n0 : n = 0 := hn0.2 hbe.symm
    have hτ' : InCorner f S θ b.1 τ e.2 := by rw [hbe]; exact hτ
    rw [if_pos hbe]
    by_cases hsb : s.source = b.1
    · have m0 : m = 0 := hm0.2 hsb
      rw [if_pos hsb]
      obtain ⟨l, h1, h2, h3⟩ := ref (b' := b.2) (e' := e.2) (β := σ) (ε := τ) (by rw [hsb]; exact at_ hb hb0 hσ)
        (by rw [hsb]; exact at_ hb he0 hτ') (by
          intro v ρ hρ
          rw [iff hρ]
          have r1 := hρ.1
          have r2 := hρ.2.1
          have r3 := hσ.2.1
          have r4 := hτ'.2.1
          have r5 := hτ'.1
          rw [hsb] at r2
          subst n0 m0
          simp only [true_and, arc_zero]
          generalize (∑ x ∈ V, θ x) = Θ at *
          clear iff ref keep keepOk hs at_ h hc hσ hτ hτ' hρ
          grind (splits := 40) [Cyc])
      exact ⟨l, by rw [h1], h2, h3⟩
    · have m0 : m ≠ 0 := fun k => hsb (hm0.1 k)
      rw [if_neg hsb]
      have hcw := (ccw_at A hc.mono hb0 (at_ hb hb0 hσ) (at_ hb he0 hτ')).2.1
      have hcw' : Vec.ccw A b.2 e.2 = .clockwise ↔ τ < σ := by
        rw [hcw]
        have r1 := hσ.1
        have r3 := hσ.2.1
        have r4 := hτ'.2.1
        have r5 := hτ'.1
        constructor
        · rintro (k | k) <;> linarith
        · intro k
          exact .inl ⟨k, by linarith⟩
      refine ⟨if τ < σ then [s] else [], ?_, keepOk _, keep (τ < σ) fun v ρ hρ => ?_⟩
      · by_cases k : τ < σ
        · rw [if_pos k, if_pos (hcw'.2 k)]
        · rw [if_neg k, if_neg (fun k' => k (hcw'.1 k'))]
      · rw [iff hρ]
        have r1 := hρ.1
        have r2 := hρ.2.1
        have r3 := hσ.2.1
        have r4 := hτ'.2.1
        have r5 := hτ'.1
        have a0m := a0m m0
        subst n0
        simp only [true_and, arc_zero, m0, false_and, if_false]
        generalize (∑ x ∈ V, θ x) = Θ at *
        generalize arc S θ b.1 m = a at *
        clear iff ref keep keepOk hs at_ h hc hσ hτ hτ' hρ
        grind (splits := 40)
  · have n0 : n ≠ 0 := fun k => hbe (hn0.1 k).symm
    have a0n := a0n n0
    rw [if_neg hbe]
    by_cases hsb : s.source = b.1
    · have m0 : m = 0 := hm0.2 hsb
      rw [if_pos hsb]
      obtain ⟨l, h1, h2, h3⟩ := ref (b' := b.2) (e' := S.vec (S.tri.nextAtVertex s.source)) (β := σ) (ε := θ b.1)
        (by rw [hsb]; exact at_ hb hb0 hσ) (by rw [hsb]; exact hc.next _ hbs) (by
          intro v ρ hρ
          rw [iff hρ]
          have r1 := hρ.1
          have r2 := hρ.2.1
          have r3 := hσ.2.1
          have r4 := hτ.2.1
          have r5 := hτ.1
          rw [hsb] at r2
          subst m0
          simp only [true_and, arc_zero, n0, false_and, if_false]
          generalize (∑ x ∈ V, θ x) = Θ at *
          generalize arc S θ b.1 n = a at *
          clear iff ref keep keepOk hs at_ h hc hσ hτ hρ
          grind (splits := 40) [Cyc])
      exact ⟨l, by rw [h1], h2, h3⟩
    · have m0 : m ≠ 0 := fun k => hsb (hm0.1 k)
      have a0m := a0m m0
      rw [if_neg hsb]
      by_cases hse : s.source = e.1
      · have hmn := hmn.2 hse
        rw [if_pos hse]
        have hself : At f (S.vec s.source) (S.vec s.source) 0 := at_self (hc.ne _ hs.lt)
        have hτe : At f (S.vec s.source) e.2 τ := by rw [hse]; exact at_ he he0 hτ
        have hcl := (ccw_at A hc.mono hself.ne hself hτe).2.2
        have hcl' : Vec.ccw A (S.vec s.source) e.2 = .collinear ↔ τ = 0 := by
          rw [hcl]
          have r4 := hτ.2.1
          have r5 := hτ.1
          constructor
          · rintro (k | k | k) <;> linarith
          · exact .inl
        by_cases k : τ = 0
        · rw [if_pos (hcl'.2 k)]
          refine ⟨[], rfl, fun t ht => (by simp at ht), fun v ρ hρ hv => ?_⟩
          rw [List.countP_nil, if_neg]
          rintro ⟨-, k'⟩
          rw [iff hρ] at k'
          have r1 := hρ.1
          simp only [m0, n0, false_and, if_false] at k'
          subst hmn
          have r3 := hσ.2.1
          rcases k' with k' | k'
          · linarith
          · linarith [k'.1, k'.2]
        · rw [if_neg fun k' => k (hcl'.1 k')]
          obtain ⟨l, h1, h2, h3⟩ := ref hself hτe (by
            intro v ρ hρ
            rw [iff hρ]
            have r1 := hρ.1
            have r2 := hρ.2.1
            have r3 := hσ.2.1
            have r4 := hτ.2.1
            have r5 := hτ.1
            subst hmn
            simp only [n0, false_and, if_false]
            generalize (∑ x ∈ V, θ x) = Θ at *
            generalize arc S θ b.1 m = a at *
            clear iff ref keep keepOk hs at_ h hc hσ hτ hρ
            grind (splits := 40) [Cyc])
          exact ⟨l, by rw [h1], h2, h3⟩
      · rw [if_neg hse]
        have hmn' : m ≠ n := fun k => hse (hmn.1 k)
        rw [h.meets hm hn hms hne (Nat.pos_of_ne_zero m0) (Nat.pos_of_ne_zero n0) hmn' fuel (by omega)]
        refine ⟨if m < n then [s] else [], by simp, keepOk _, keep (m < n) fun v ρ hρ => ?_⟩
        rw [iff hρ]
        have r1 := hρ.1
        have r2 := hρ.2.1
        have r3 := hσ.2.1
        have r4 := hτ.2.1
        have r5 := hτ.1
        simp only [m0, n0, false_and, if_false]
        constructor
        · intro k
          by_contra k'
          have := h.arc_le hb (show n < m by omega)
          rw [hne] at this
          rcases k with k | k
          · linarith
          · linarith [k.1, k.2]
        · intro k
          have := h.arc_le hb k
          rw [hms] at this
          exact .inl (by linarith)

end SaddleConnections

end Verif
