import Verif.Lemmas.SaddleAngle
import Verif.Props.C21

/-!
# C75: Angles and turns between saddle connections are correct
-/

set_option linter.unusedSectionVars false
set_option linter.unusedSimpArgs false

namespace Verif.C75

open Verif Spec Tri FlatTri Examples Vec Real Function

variable {T : Type} [CommRing T] [LinearOrder T] [IsStrictOrderedRing T]
variable {K : Type*} [Field K] [LinearOrder K] [IsStrictOrderedRing K]

/-- A direction in a sector has an angle from the half edge of the sector. -/
theorem inCorner_exists {f : T →+* ℝ} (hf : StrictMono f) (A : Option (Approx T K)) {dbg : Bool} {S : FlatTri T}
    (h : S.tri.Reachable dbg) (hS : IsFlat S) {V : Finset HE} (hV : V ∈ S.tri.vertexes)
    (hb : ∀ e ∈ V, S.tri.boundary e = false) {θ : HE → ℝ} (hθ : Corners f S V θ) {e : HE} (he : e ∈ V) (v : Vec T) :
    S.inSector A e v = true ↔ v ≠ 0 ∧ ∃ σ, InCorner f S θ e σ v := by
  have ha := C21.around hf h hS hV hb hθ
  constructor
  · intro hs
    have hv : v ≠ 0 := by
      rintro rfl
      have := ((inSector_iff A S e 0).1 hs).2
      unfold cross at this
      simp at this
    obtain ⟨ρ, d⟩ := ha.exists_dir hv
    exact ⟨hv, ρ e, (d e he).1, (ha.inSector_iff_lt A d he).1 hs, (d e he).2.2⟩
  · rintro ⟨hv, σ, h0, h1, h2⟩
    obtain ⟨ρ, d⟩ := ha.exists_dir hv
    rw [ha.inSector_iff_lt A d he]
    have hp := ha.pos he
    rw [(d e he).2.2.close (ha.vec_ne he) h2 (by linarith [(d e he).2.1, pi_pos]) (by linarith [(d e he).1, pi_pos])]
    exact h1

/-- There is exactly one turn of less than a full turn around the vertex that gets from one direction to another. -/
theorem turnsTo_existsUnique {f : T →+* ℝ} (hf : StrictMono f) {dbg : Bool} {S : FlatTri T}
    (h : S.tri.Reachable dbg) (hS : IsFlat S) {V : Finset HE} (hV : V ∈ S.tri.vertexes)
    (hb : ∀ e ∈ V, S.tri.boundary e = false) {θ : HE → ℝ} (hθ : Corners f S V θ) {e e' : HE} (he : e ∈ V) (he' : e' ∈ V)
    {u v : Vec T} {σ τ : ℝ} (hu : InCorner f S θ e σ u) (hv : InCorner f S θ e' τ v) :
    ∃! α, TurnsTo S θ e σ α e' τ ∧ α < ∑ x ∈ V, θ x := by
  have ha := C21.around hf h hS hV hb hθ
  refine existsUnique_of_exists_of_unique ?_ ?_
  · classical
    have hr := ha.reach he he'
    by_cases hcase : e = e' ∧ σ ≤ τ
    · obtain ⟨rfl, hle⟩ := hcase
      refine ⟨τ - σ, ⟨by linarith, 0, rfl, by rw [arc_zero]; ring⟩, ?_⟩
      have h1 : θ e ≤ ∑ x ∈ V, θ x := Finset.single_le_sum (f := θ) (fun x hx => (ha.pos hx).1.le) he
      linarith [hu.1, hv.2.1]
    · obtain ⟨p, hp, hper, harc⟩ := ha.period
      -- the first positive number of steps
      have hr' : ∃ k, S.tri.nextAtVertex^[k + 1] e = e' := by
        obtain ⟨k, hk⟩ := hr
        refine ⟨k + p - 1, ?_⟩
        rw [show k + p - 1 + 1 = k + p by omega, iterate_add_apply, hper e he, hk]
      set n := Nat.find hr' with hn
      have hspec : S.tri.nextAtVertex^[n + 1] e = e' := Nat.find_spec hr'
      have hle : n + 1 ≤ p := by
        by_contra hc
        have h1 : S.tri.nextAtVertex^[n - p + 1] e = e' := by
          rw [show n + 1 = (n - p + 1) + p by omega, iterate_add_apply, hper e he] at hspec
          exact hspec
        exact Nat.find_min hr' (show n - p < n by omega) h1
      have h1 : θ e ≤ arc S θ e (n + 1) := by
        rw [← arc_one (S := S) (θ := θ) e]
        rcases (show 1 ≤ n + 1 by omega).eq_or_lt with h5 | h5
        · rw [← h5]
        · exact (ha.arc_lt he h5).le
      refine ⟨arc S θ e (n + 1) + τ - σ, ⟨by linarith [hu.2.1, hv.1], n + 1, hspec, by ring⟩, ?_⟩
      rcases hle.eq_or_lt with h2 | h2
      · rw [h2, harc e he]
        rw [h2, hper e he] at hspec
        have : ¬ σ ≤ τ := fun hc => hcase ⟨hspec, hc⟩
        linarith
      · have h3 : arc S θ e (n + 1 + 1) ≤ arc S θ e p := by
          rcases (show n + 1 + 1 ≤ p by omega).eq_or_lt with h5 | h5
          · rw [← h5]
          · exact (ha.arc_lt he h5).le
        rw [arc_succ, hspec, harc e he] at h3
        linarith [hv.2.1, hu.1]
  · have key : ∀ α β, (TurnsTo S θ e σ α e' τ ∧ α < ∑ x ∈ V, θ x) → (TurnsTo S θ e σ β e' τ ∧ β < ∑ x ∈ V, θ x) →
        ¬ α < β := by
      rintro α β ⟨⟨a1, m, a2, a3⟩, a4⟩ ⟨⟨b1, n, b2, b3⟩, b4⟩ hlt
      have hmn : m < n := by
        by_contra hc
        rcases (not_lt.1 hc).eq_or_lt with h1 | h1
        · rw [h1] at b3; linarith
        · linarith [ha.arc_lt he h1]
      have := ha.between he hmn (a2.trans b2.symm)
      linarith
    intro α β h1 h2
    exact le_antisymm (not_lt.1 (key β α h2 h1)) (not_lt.1 (key α β h1 h2))

theorem source_eq {S : FlatTri T} (hF : S.Flat) {V : Finset HE} (hV : V ∈ S.tri.vertexes) {e : HE} (he : e ∈ V) :
    S.tri.source e = some V := by
  unfold Tri.source
  cases hf : S.tri.vertexes.find? (fun v => e ∈ v) with
  | none => exact absurd he (by simpa using List.find?_eq_none.1 hf V hV)
  | some w =>
    congr 1
    have hew : e ∈ w := by simpa using List.find?_some hf
    obtain ⟨x, hx, hv⟩ := hF.ver.orbit w (List.mem_of_find?_eq_some hf)
    obtain ⟨y, hy, hv'⟩ := hF.ver.orbit V hV
    have hxe := (hv e).1 hew
    have hye := (hv' e).1 he
    ext z
    rw [hv, hv']
    exact ⟨fun hz => hye.trans ((hxe.symm hF.coh.hv).trans hz), fun hz => hxe.trans ((hye.symm hF.coh.hv).trans hz)⟩

theorem isSource_iff {S : FlatTri T} (hF : S.Flat) {V W : Finset HE} (hV : V ∈ S.tri.vertexes) (hW : W ∈ S.tri.vertexes)
    {e : HE} (he : e ∈ W) : S.isSource V e = true ↔ V = W := by
  unfold FlatTri.isSource
  rw [source_eq hF hW he]
  unfold sameVertex
  simp only
  rw [decide_eq_true_iff]
  constructor
  · intro hm
    obtain ⟨x, hx, hv⟩ := hF.ver.orbit V hV
    have hxV : x ∈ V := (hv x).2 (Perm.Orb.refl _ _)
    obtain ⟨m, hmv⟩ := Finset.min_of_mem hxV
    have h1 := source_eq hF hV (Finset.mem_of_min hmv)
    rw [hm] at hmv
    have h2 := source_eq hF hW (Finset.mem_of_min hmv)
    exact Option.some.inj (h1.symm.trans h2)
  · rintro rfl; rfl

theorem floor_nat {α β : ℝ} (hβ : 0 < β) {k : ℕ} (h1 : k * β ≤ α) (h2 : α < (k + 1) * β) : ⌊α / β⌋ = k := by
  rw [Int.floor_eq_iff]
  refine ⟨?_, ?_⟩
  · rw [le_div_iff₀ hβ]; exact_mod_cast h1
  · rw [div_lt_iff₀ hβ]; exact_mod_cast h2

theorem turn_half {f : T →+* ℝ} (hf : StrictMono f) (A : Option (Approx T K)) {dbg : Bool} {S : FlatTri T}
    (h : S.tri.Reachable dbg) (hS : IsFlat S) {V : Finset HE} (hV : V ∈ S.tri.vertexes)
    (hb : ∀ e ∈ V, S.tri.boundary e = false) {θ : HE → ℝ} (hθ : Corners f S V θ) {e e' : HE} (he : e ∈ V) (he' : e' ∈ V)
    {u v : Vec T} {σ τ α : ℝ} (hu : InCorner f S θ e σ u) (hv : InCorner f S θ e' τ v) (ht : TurnsTo S θ e σ α e' τ)
    (hα : α < ∑ x ∈ V, θ x) :
    ∃ N, ∃ k : ℕ, (∀ fuel ≥ N, S.turn A fuel e u e' v = some (.ok k)) ∧ k * π ≤ α ∧ α < (k + 1) * π := by
  have ha := C21.around hf h hS hV hb hθ
  have hF := IsFlat.flat h hS
  obtain ⟨h0, n, hn, harc⟩ := ht
  have key : ∀ fuel ≥ n + 2, ∃ k : ℕ, S.turn A fuel e u e' v = some (.ok k) ∧ k * π ≤ α ∧ α < (k + 1) * π := by
    intro fuel hfuel
    obtain ⟨k, h1, h2, h3⟩ := ha.turnLoop A he hu hv hα hn h0 harc (k := 0) (by omega) hu (Or.inl ⟨rfl, rfl⟩) (a := 0)
      (by rw [arc_zero]; simp) (by rw [arc_zero]; simp [pi_pos]) (fuel := fuel) (by omega)
    refine ⟨k, ?_, h2, h3⟩
    unfold FlatTri.turn
    rw [source_eq hF hV he]
    simp only
    rw [if_pos ((isSource_iff hF hV hV he').2 rfl)]
    have h1' : S.turnLoop A u e' v fuel e u 0 .counterclockwise = some k := h1
    rw [h1']
    rfl
  obtain ⟨k, h1, h2, h3⟩ := key (n + 2) (le_refl _)
  refine ⟨n + 2, k, fun fuel hfuel => ?_, h2, h3⟩
  obtain ⟨k', h1', h2', h3'⟩ := key fuel hfuel
  have : (k' : ℤ) = k := by rw [← floor_nat pi_pos h2' h3', ← floor_nat pi_pos h2 h3]
  rw [h1', Int.natCast_inj.1 this]

/-- The angle from a saddle connection to a direction in a sector, or to another saddle connection, is the number of full
turns ⌊α/2π⌋ for the counterclockwise turn by `α`. -/
theorem angle_correct {f : T →+* ℝ} (hf : StrictMono f) (A : Option (Approx T K)) {dbg : Bool} {S : FlatTri T}
    (h : S.tri.Reachable dbg) (hS : IsFlat S) {V : Finset HE} (hV : V ∈ S.tri.vertexes)
    (hb : ∀ e ∈ V, S.tri.boundary e = false) {θ : HE → ℝ} (hθ : Corners f S V θ) {c : Saddle} (hc : c.source ∈ V)
    {e : HE} (he : e ∈ V) {v : Vec T} {σ τ α : ℝ} (hu : InCorner f S θ c.source σ (S.saddleVector c))
    (hv : InCorner f S θ e τ v) (ht : TurnsTo S θ c.source σ α e τ) (hα : α < ∑ x ∈ V, θ x) :
    ∃ N, ∃ k : ℕ, (∀ fuel ≥ N, S.saddleAngle A fuel c e v = some (.ok k)) ∧ (k : ℤ) = ⌊α / (2 * π)⌋ := by
  obtain ⟨N, k, h1, h2, h3⟩ := turn_half hf A h hS hV hb hθ hc he hu hv ht hα
  refine ⟨N, k / 2, fun fuel hfuel => ?_, ?_⟩
  · unfold saddleAngle
    rw [h1 fuel hfuel]
    rfl
  · have hpi := pi_pos
    symm
    refine floor_nat (by linarith) ?_ ?_
    · have h4 : (2 : ℝ) * (k / 2 : ℕ) ≤ k := by exact_mod_cast (by omega : 2 * (k / 2) ≤ k)
      nlinarith
    · have h4 : (k : ℝ) + 1 ≤ 2 * ((k / 2 : ℕ) + 1) := by exact_mod_cast (by omega : k + 1 ≤ 2 * (k / 2 + 1))
      nlinarith

/-- Turning to a direction at another vertex is not possible. -/
theorem angle_invalid (A : Option (Approx T K)) {dbg : Bool} {S : FlatTri T}
    (h : S.tri.Reachable dbg) (hS : IsFlat S) {V W : Finset HE} (hV : V ∈ S.tri.vertexes) (hW : W ∈ S.tri.vertexes)
    (hne : V ≠ W) {c : Saddle} (hc : c.source ∈ V) {e : HE} (he : e ∈ W) (v : Vec T) (fuel : ℕ) :
    S.saddleAngle A fuel c e v = some (.error .invalidArgument) ∧
      S.saddleCcw A fuel c e v = some (.error .invalidArgument) := by
  have hF := IsFlat.flat h hS
  have : S.turn A fuel c.source (S.saddleVector c) e v = some (.error .invalidArgument) := by
    unfold FlatTri.turn
    rw [source_eq hF hV hc]
    simp only
    rw [if_neg (fun h => hne ((isSource_iff hF hV hW he).1 h))]
  unfold saddleAngle saddleCcw
  rw [this]
  exact ⟨rfl, rfl⟩

/-- `ccw` says whether the counterclockwise or the clockwise turn is shorter: the counterclockwise turn by `α` is compared
to the clockwise turn by the total angle minus `α`. It is `COLLINEAR` when there is nothing to turn and when both turns
have the same length. -/
theorem ccw_correct {f : T →+* ℝ} (hf : StrictMono f) (A : Option (Approx T K)) {dbg : Bool} {S : FlatTri T}
    (h : S.tri.Reachable dbg) (hS : IsFlat S) {V : Finset HE} (hV : V ∈ S.tri.vertexes)
    (hb : ∀ e ∈ V, S.tri.boundary e = false) {θ : HE → ℝ} (hθ : Corners f S V θ) {c : Saddle} (hc : c.source ∈ V)
    {e : HE} (he : e ∈ V) {v : Vec T} {σ τ α : ℝ} (hu : InCorner f S θ c.source σ (S.saddleVector c))
    (hv : InCorner f S θ e τ v) (ht : TurnsTo S θ c.source σ α e τ) (hα : α < ∑ x ∈ V, θ x) :
    ∃ N, ∃ r, (∀ fuel ≥ N, S.saddleCcw A fuel c e v = some (.ok r)) ∧
      (r = .collinear ↔ α = 0 ∨ α = ∑ x ∈ V, θ x - α) ∧
      (r = .counterclockwise ↔ α ≠ 0 ∧ α < ∑ x ∈ V, θ x - α) ∧
      (r = .clockwise ↔ α ≠ 0 ∧ ∑ x ∈ V, θ x - α < α) := by
  have ha := C21.around hf h hS hV hb hθ
  have hF := IsFlat.flat h hS
  have hpi := pi_pos
  obtain ⟨N, k, h1, h2, h3⟩ := turn_half hf A h hS hV hb hθ hc he hu hv ht hα
  obtain ⟨m, M, hM, hm, htotal⟩ := C20.angle_correct f hf h hS hV hb
  have htot := htotal θ hθ
  rw [htot] at hα ⊢
  have hm' : (1 : ℝ) ≤ m := by exact_mod_cast hm
  obtain ⟨h0, n, hn, harc⟩ := ht
  have hturn : Turns ((S.saddleVector c).map f) α (v.map f) := by
    have := (hu.2.2.symm.trans (turn_iterate ha hc n)).trans (by rw [hn]; exact hv.2.2)
    rwa [show -σ + arc S θ c.source n + τ = α by linarith] at this
  have hune : (S.saddleVector c).map f ≠ 0 := by
    intro h0
    have := hu.2.2.symm
    rw [h0] at this
    obtain ⟨s, hs, hw'⟩ := this
    exact ha.vec_ne hc (by rw [hw']; ext <;> simp [rotate])
  have hvne : v.map f ≠ 0 := by
    intro h0
    have := hv.2.2.symm
    rw [h0] at this
    obtain ⟨s, hs, hw'⟩ := this
    exact ha.vec_ne he (by rw [hw']; ext <;> simp [rotate])
  -- when the vectors are collinear
  have hcol : Vec.ccw A v (S.saddleVector c) = .collinear ↔ α = k * π := by
    rw [(ccw_turn A hf hvne hturn.symm).2.2, sin_neg, neg_eq_zero, sin_half (β := α) k, mul_eq_zero,
      or_iff_right (pow_ne_zero _ (by norm_num))]
    constructor
    · intro hs
      by_contra hne
      have : 0 < α - k * π := lt_of_le_of_ne (by linarith) fun hc => hne (by linarith)
      exact (sin_pos_of_pos_of_lt_pi this (by linarith)).ne' hs
    · intro hs; rw [hs, sub_self, sin_zero]
  refine ⟨max N M, ?_⟩
  have hval : ∀ fuel ≥ max N M, S.saddleCcw A fuel c e v = some (.ok (
      if k = 0 then if e = c.source ∧ Vec.ccw A v (S.saddleVector c) = .collinear then .collinear else .counterclockwise
      else if k = m ∧ Vec.ccw A v (S.saddleVector c) = .collinear then .collinear
        else if k < m then .counterclockwise else .clockwise)) := by
    intro fuel hfuel
    unfold saddleCcw
    rw [h1 fuel ((le_max_left _ _).trans hfuel), source_eq hF hV he]
    simp only [Option.bind_some]
    rw [hM fuel ((le_max_right _ _).trans hfuel)]
    simp only [Option.map_some]
    split_ifs <;> rfl
  refine ⟨_, hval, ?_⟩
  by_cases hk : k = 0
  · rw [if_pos hk]
    subst hk
    simp only [Nat.cast_zero, zero_mul] at hcol h2 h3
    have hlt : α < m * (2 * π) - α := by nlinarith
    have hsrc : α = 0 → e = c.source := by
      intro hz
      by_contra hne
      have hn0 : 0 < n := by
        rcases Nat.eq_zero_or_pos n with hn0 | hn0
        · subst hn0; exact absurd hn.symm hne
        · exact hn0
      have h4 : arc S θ c.source 1 ≤ arc S θ c.source n := by
        rcases (show 1 ≤ n by omega).eq_or_lt with h5 | h5
        · rw [h5]
        · exact (ha.arc_lt hc h5).le
      rw [arc_one] at h4
      linarith [hu.2.1, hv.1]
    by_cases hz : α = 0
    · rw [if_pos ⟨hsrc hz, hcol.2 hz⟩]
      simp [hz]
    · rw [if_neg fun hc => hz (hcol.1 hc.2)]
      have h5 : ¬ α = m * (2 * π) - α := hlt.ne
      simp only [reduceCtorEq, false_iff, true_iff, ne_eq, hz, false_or, not_false_eq_true, true_and, h5, hlt, not_lt]
      exact hlt.le
  · rw [if_neg hk]
    have hk1 : (1 : ℝ) ≤ k := by exact_mod_cast Nat.one_le_iff_ne_zero.2 hk
    have hz : ¬ α = 0 := by intro hz; nlinarith
    by_cases hkm : k = m ∧ Vec.ccw A v (S.saddleVector c) = .collinear
    · rw [if_pos hkm]
      have h4 := hcol.1 hkm.2
      rw [hkm.1] at h4
      have h5 : α = m * (2 * π) - α := by linarith
      have h6 : ¬ α < m * (2 * π) - α := by linarith
      have h7 : ¬ m * (2 * π) - α < α := by linarith
      exact ⟨⟨fun _ => Or.inr h5, fun _ => rfl⟩, ⟨fun h => (by cases h), fun h => absurd h.2 h6⟩, ⟨fun h => (by cases h), fun h => absurd h.2 h7⟩⟩
    · rw [if_neg hkm]
      by_cases hlt : k < m
      · rw [if_pos hlt]
        have h4 : (k : ℝ) + 1 ≤ m := by exact_mod_cast hlt
        have h5 : α < m * (2 * π) - α := by nlinarith
        simp only [reduceCtorEq, false_iff, true_iff, ne_eq, hz, false_or, not_false_eq_true, true_and, h5, h5.ne, not_lt]
        exact h5.le
      · rw [if_neg hlt]
        have h4 : (m : ℝ) ≤ k := by exact_mod_cast not_lt.1 hlt
        have h5 : m * (2 * π) - α < α := by
          rcases (not_lt.1 hlt).eq_or_lt with h6 | h6
          · have : α ≠ k * π := fun hc => hkm ⟨h6.symm, hcol.2 hc⟩
            have : k * π < α := lt_of_le_of_ne h2 (Ne.symm this)
            rw [← h6] at this
            linarith
          · have h7 : (m : ℝ) + 1 ≤ k := by exact_mod_cast h6
            nlinarith
        simp only [reduceCtorEq, false_iff, true_iff, ne_eq, hz, false_or, not_false_eq_true, true_and, h5, h5.ne', not_lt, h5.le]

/-- The hypotheses are met by saddle connections and directions of the L-shaped surface whose vertex has a total angle of
6π. -/
example : ∃ (f : ℤ →+* ℝ) (θ : HE → ℝ) (σ τ α : ℝ), StrictMono f ∧ Corners f flatEll (Finset.range 18) θ ∧
    InCorner f flatEll θ 0 σ (flatEll.saddleVector (.ofHalfEdge 0)) ∧ InCorner f flatEll θ 2 τ ⟨2, 1⟩ ∧
    TurnsTo flatEll θ 0 σ α 2 τ ∧ α < ∑ x ∈ Finset.range 18, θ x := by
  have hf : StrictMono (Int.castRingHom ℝ) := Int.cast_strictMono
  obtain ⟨θ, hθ⟩ := C21.corners_exist hf (ell_reachable true) flatEll_isFlat C21.ell_vertex.1 C21.ell_vertex.2
  have h0 : (0 : HE) ∈ Finset.range 18 := by decide
  have h2 : (2 : HE) ∈ Finset.range 18 := by decide
  obtain ⟨-, σ, hσ⟩ := (inCorner_exists hf (none : Option (Approx ℤ ℚ)) (ell_reachable true) flatEll_isFlat C21.ell_vertex.1
    C21.ell_vertex.2 hθ h0 (flatEll.saddleVector (.ofHalfEdge 0))).1 (by decide +kernel)
  obtain ⟨-, τ, hτ⟩ := (inCorner_exists hf (none : Option (Approx ℤ ℚ)) (ell_reachable true) flatEll_isFlat C21.ell_vertex.1
    C21.ell_vertex.2 hθ h2 ⟨2, 1⟩).1 (by decide +kernel)
  obtain ⟨α, hα, -⟩ := turnsTo_existsUnique hf (ell_reachable true) flatEll_isFlat C21.ell_vertex.1 C21.ell_vertex.2 hθ h0 h2 hσ hτ
  exact ⟨_, θ, σ, τ, α, hf, hθ, hσ, hτ, hα⟩

/-- Angles and turns at this vertex. -/
example : flatEll.saddleAngle (none : Option (Approx ℤ ℚ)) 30 (.ofHalfEdge 0) 2 ⟨2, 1⟩ = some (.ok 2) ∧
    flatEll.saddleAngle (none : Option (Approx ℤ ℚ)) 30 (.ofHalfEdge 0) 4 ⟨2, 1⟩ = some (.ok 1) ∧
    flatEll.saddleCcw (none : Option (Approx ℤ ℚ)) 30 (.ofHalfEdge 0) 4 ⟨2, 1⟩ = some (.ok .counterclockwise) ∧
    flatEll.saddleCcw (none : Option (Approx ℤ ℚ)) 30 (.ofHalfEdge 0) 2 ⟨2, 1⟩ = some (.ok .clockwise) ∧
    flatEll.saddleCcw (none : Option (Approx ℤ ℚ)) 30 (.ofHalfEdge 0) 5 ⟨-1, 0⟩ = some (.ok .collinear) := by
  decide +kernel

end Verif.C75
