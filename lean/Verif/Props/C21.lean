import Verif.Lemmas.SectorWalks
import Verif.Lemmas.FlatExamples
import Verif.Props.C20

/-!
# C21: Every direction lies in exactly the sectors it should

The claims about turning clockwise are property C69.
-/

set_option linter.unusedSectionVars false

namespace Verif.C21

open Verif Spec Tri FlatTri Examples Vec Real Function

variable {T : Type} [CommRing T] [LinearOrder T] [IsStrictOrderedRing T]
variable {K : Type*} [Field K] [LinearOrder K] [IsStrictOrderedRing K]

theorem around {f : T →+* ℝ} (hf : StrictMono f) {dbg : Bool} {S : FlatTri T} (h : S.tri.Reachable dbg) (hS : IsFlat S)
    {V : Finset HE} (hV : V ∈ S.tri.vertexes) (hb : ∀ e ∈ V, S.tri.boundary e = false) {θ : HE → ℝ}
    (hθ : Corners f S V θ) : Around f S V θ :=
  have hF := IsFlat.flat h hS
  ⟨hF, hf, let ⟨x, _, hx⟩ := hF.ver.orbit V hV; ⟨x, hx⟩, fun e he => boundary_false.1 (hb e he), hθ⟩

/-- The corner into which one turns from a half edge is determined by the angle. -/
theorem turnedInto_unique {f : T →+* ℝ} (hf : StrictMono f) {dbg : Bool} {S : FlatTri T} (h : S.tri.Reachable dbg)
    (hS : IsFlat S) {V : Finset HE} (hV : V ∈ S.tri.vertexes) (hb : ∀ e ∈ V, S.tri.boundary e = false) {θ : HE → ℝ}
    (hθ : Corners f S V θ) {e e' e'' : HE} (he : e ∈ V) {α : ℝ} (h1 : TurnedInto S θ e α e')
    (h2 : TurnedInto S θ e α e'') : e' = e'' :=
  (around hf h hS hV hb hθ).unique he h1 h2

/-- The corners at a vertex have angles. -/
theorem corners_exist {f : T →+* ℝ} (hf : StrictMono f) {dbg : Bool} {S : FlatTri T} (h : S.tri.Reachable dbg)
    (hS : IsFlat S) {V : Finset HE} (hV : V ∈ S.tri.vertexes) (hb : ∀ e ∈ V, S.tri.boundary e = false) :
    ∃ θ, Corners f S V θ :=
  have hF := IsFlat.flat h hS
  let ⟨_, _, hx⟩ := hF.ver.orbit V hV
  hF.exists_corners hf hx fun e he => boundary_false.1 (hb e he)

/-- There is exactly one angle at which one first gets to a direction. -/
theorem firstTurn_existsUnique {u v : Vec ℝ} (hu : u ≠ 0) (hv : v ≠ 0) {ccw : CCW} (hc : ccw ≠ .collinear)
    (exclude : Bool) : ∃! α, FirstTurn u ccw v exclude α := by
  obtain ⟨ρ, h0, h1, hρ⟩ := exists_turns hu hv
  have hm : Turns u (ρ - 2 * π) v := by rw [← Turns.period, sub_add_cancel]; exact hρ
  have hp : Turns u (ρ + 2 * π) v := Turns.period.2 hρ
  have hpi := pi_pos
  refine existsUnique_of_exists_of_unique ?_ ?_
  · rcases h0.eq_or_lt with hz | hz
    · subst hz
      rw [zero_sub] at hm
      rw [zero_add] at hp
      cases ccw with
      | collinear => exact absurd rfl hc
      | counterclockwise =>
        cases exclude
        · exact ⟨0, hρ, by simp only; exact ⟨le_refl _, by linarith⟩⟩
        · exact ⟨2 * π, hp, by simp only; exact ⟨by linarith, le_refl _⟩⟩
      | clockwise =>
        cases exclude
        · exact ⟨0, hρ, by simp only; exact ⟨by linarith, le_refl _⟩⟩
        · exact ⟨-(2 * π), hm, by simp only; exact ⟨le_refl _, by linarith⟩⟩
    · cases ccw with
      | collinear => exact absurd rfl hc
      | counterclockwise =>
        refine ⟨ρ, hρ, ?_⟩
        cases exclude <;> simp only <;> constructor <;> linarith
      | clockwise =>
        refine ⟨ρ - 2 * π, hm, ?_⟩
        cases exclude <;> simp only <;> constructor <;> linarith
  · intro α β hα hβ
    rcases hα.eq hu h0 h1 hρ with ⟨e1, a⟩ | ⟨e1, a⟩ <;> rcases hβ.eq hu h0 h1 hρ with ⟨e2, b⟩ | ⟨e2, b⟩
    · rw [a, b]
    · rw [e1] at e2; cases e2
    · rw [e1] at e2; cases e2
    · rw [a, b]

/-- At a vertex with a total angle of `2πk`, each direction is contained in exactly `k` sectors. -/
theorem sector_count (f : T →+* ℝ) (hf : StrictMono f) (A : Option (Approx T K)) {dbg : Bool} {S : FlatTri T}
    (h : S.tri.Reachable dbg) (hS : IsFlat S) {V : Finset HE} (hV : V ∈ S.tri.vertexes)
    (hb : ∀ e ∈ V, S.tri.boundary e = false) {v : Vec T} (hv : v ≠ 0) :
    ∃ N, ∀ fuel ≥ N, S.angle fuel V = some (V.filter fun e => S.inSector A e v).card := by
  have hF := IsFlat.flat h hS
  obtain ⟨x, -, hx⟩ := hF.ver.orbit V hV
  obtain ⟨k, N, hN, -, hk⟩ := C20.angle_correct f hf h hS hV hb
  refine ⟨N, fun fuel hfuel => (hN fuel hfuel).trans ?_⟩
  obtain ⟨θ, hθ⟩ := hF.exists_corners hf hx fun e he => boundary_false.1 (hb e he)
  have h1 := hk θ hθ
  rw [hF.cone f hf A hx (fun e he => boundary_false.1 (hb e he)) hv (fun e he => ⟨(hθ e he).1, (hθ e he).2.1⟩)
    (fun e he => (hθ e he).2.2), mul_comm] at h1
  have h2 : (2 * π) ≠ 0 := by have := pi_pos; positivity
  exact congrArg some (Nat.cast_injective (mul_right_cancel₀ h2 h1)).symm

/-- `sector(start, COUNTERCLOCKWISE, direction, exclude)` terminates and returns the first sector one gets to by turning
counterclockwise to the direction. -/
theorem sector_counterclockwise {f : T →+* ℝ} (hf : StrictMono f) (A : Option (Approx T K)) {dbg : Bool} {S : FlatTri T}
    (h : S.tri.Reachable dbg) (hS : IsFlat S) {V : Finset HE} (hV : V ∈ S.tri.vertexes)
    (hb : ∀ e ∈ V, S.tri.boundary e = false) {θ : HE → ℝ} (hθ : Corners f S V θ) {start : HE} (hs : start ∈ V)
    {v : Vec T} (hv : v ≠ 0) (exclude : Bool) :
    ∃ e N, (∀ fuel ≥ N, S.sector A fuel start .counterclockwise v exclude = some (.ok e)) ∧ S.inSector A e v = true ∧
      ∀ α, FirstTurn ((S.vec start).map f) .counterclockwise (v.map f) exclude α → TurnedInto S θ start α e := by
  have ha := around hf h hS hV hb hθ
  obtain ⟨ρ, d⟩ := ha.exists_dir hv
  obtain ⟨n, N, h1, h2, h3⟩ := ha.sector_ccw A d hv hs exclude
  refine ⟨_, N, h3, h2, fun α hα => ?_⟩
  rcases hα.eq (ha.vec_ne hs) (d _ hs).1 (d _ hs).2.1 (d _ hs).2.2 with ⟨-, hα⟩ | ⟨hc, -⟩
  · rw [hα]
    by_cases hc : ρ start = 0 ∧ exclude = true
    · simp only [if_pos hc] at h1 h2 ⊢
      have h0 : S.inSector A start v = true := (ha.inSector_iff_lt A d hs).2 (by rw [hc.1]; exact (ha.pos hs).1)
      have := ha.second A d hs h0 (n := n) (fun i hi => by rw [iterate_succ_apply]; exact h1 i hi)
        (by rw [iterate_succ_apply]; exact h2)
      rw [hc.1, zero_add, iterate_succ_apply] at this
      exact this
    · simp only [if_neg hc] at h1 h2 ⊢
      exact ha.first A d hs h1 h2
  · cases hc

/-- `sector(start, COLLINEAR, …)` throws. -/
theorem sector_collinear (A : Option (Approx T K)) (S : FlatTri T) (fuel : ℕ) (start : HE) (v : Vec T) (exclude : Bool) :
    S.sector A fuel start .collinear v exclude = some (.error .invalidArgument) := rfl

/-- `sector(sector, start, COUNTERCLOCKWISE, direction, exclude)` terminates and returns the first sector one gets to by
turning counterclockwise from the start direction to the direction. -/
theorem sectorFrom_counterclockwise {f : T →+* ℝ} (hf : StrictMono f) (A : Option (Approx T K)) {dbg : Bool}
    {S : FlatTri T} (h : S.tri.Reachable dbg) (hS : IsFlat S) {V : Finset HE} (hV : V ∈ S.tri.vertexes)
    (hb : ∀ e ∈ V, S.tri.boundary e = false) {θ : HE → ℝ} (hθ : Corners f S V θ) {sector : HE} (hs : sector ∈ V)
    {start v : Vec T} (hstart : S.inSector A sector start = true) (hv : v ≠ 0) (exclude : Bool) :
    ∃ e N, (∀ fuel ≥ N, S.sectorFrom A fuel sector start .counterclockwise v exclude = some (.ok e)) ∧
      S.inSector A e v = true ∧
      ∀ τ, 0 ≤ τ → τ < 2 * π → Turns ((S.vec sector).map f) τ (start.map f) →
        ∀ α, FirstTurn (start.map f) .counterclockwise (v.map f) exclude α → TurnedInto S θ sector (τ + α) e := by
  have ha := around hf h hS hV hb hθ
  have hpi := pi_pos
  have hstart0 : start ≠ 0 := by
    rintro rfl
    rw [inSector_iff] at hstart
    have := hstart.2
    rw [cross_zero_right] at this
    exact lt_irrefl _ this
  obtain ⟨ρ, d⟩ := ha.exists_dir hv
  obtain ⟨σ, ds⟩ := ha.exists_dir hstart0
  obtain ⟨d0, d1, d2⟩ := d sector hs
  obtain ⟨s0, s1, s2⟩ := ds sector hs
  have hσ : σ sector < θ sector := (ha.inSector_iff_lt A ds hs).1 hstart
  obtain ⟨t0, t1⟩ := ha.pos hs
  -- the angle we turn by
  have hturn : ∀ τ, 0 ≤ τ → τ < 2 * π → Turns ((S.vec sector).map f) τ (start.map f) →
        ∀ α, FirstTurn (start.map f) .counterclockwise (v.map f) exclude α →
        τ = σ sector ∧ Turns ((S.vec sector).map f) (σ sector + α) (v.map f) ∧ 0 ≤ α ∧ α ≤ 2 * π ∧
          (exclude = false → α < 2 * π) ∧ (exclude = true → 0 < α) := by
    intro τ h1 h2 h3 α hα
    have e1 : τ = σ sector := Turns.unique (ha.vec_ne hs) ⟨h1, h2⟩ ⟨s0, s1⟩ h3 s2
    refine ⟨e1, s2.trans hα.1, ?_⟩
    have := hα.2
    cases exclude <;> simp only at this <;> refine ⟨by linarith, by linarith, ?_, ?_⟩ <;> intro hc
    · linarith
    · cases hc
    · cases hc
    · linarith
  by_cases hi : S.inSector A sector v = true
  · have hρ := (ha.inSector_iff_lt A d hs).1 hi
    obtain ⟨r, hr, e1, -⟩ := s2.cross_eq d2
    have hr := hr (ha.vec_ne hs)
    rw [cross_map] at e1
    have c1 : 0 < cross start v ↔ 0 < sin (ρ sector - σ sector) := by
      rw [← hf.lt_iff_lt, map_zero, e1]
      exact mul_pos_iff_of_pos_left hr
    have c2 : cross start v = 0 ↔ sin (ρ sector - σ sector) = 0 := by
      rw [← map_eq_zero_iff f hf.injective, e1, mul_eq_zero]
      exact ⟨fun hc => hc.resolve_left hr.ne', Or.inr⟩
    have hfirst := ha.first A d hs (n := 0) (fun i hi => absurd hi (by omega)) hi
    rw [iterate_zero_apply] at hfirst
    rcases lt_trichotomy (σ sector) (ρ sector) with hlt | heq | hlt
    · -- the direction is ahead in the sector
      have hc := c1.2 (sin_pos_of_pos_of_lt_pi (by linarith) (by linarith))
      refine ⟨sector, 0, fun fuel _ => ?_, hi, fun τ h1 h2 h3 α hα => ?_⟩
      · unfold sectorFrom
        rw [if_neg (by decide), hstart, hi, ccw_eq, ccwExact_ccw.2 hc]
        rfl
      · obtain ⟨rfl, h4, h5, h6, -, -⟩ := hturn τ h1 h2 h3 α hα
        rwa [h4.close (ha.vec_ne hs) d2 (by linarith) (by linarith)]
    · -- the direction is where we start
      have hc := c2.2 (by rw [heq, sub_self, sin_zero])
      cases exclude with
      | false =>
        refine ⟨sector, 0, fun fuel _ => ?_, hi, fun τ h1 h2 h3 α hα => ?_⟩
        · unfold sectorFrom
          rw [if_neg (by decide), hstart, hi, ccw_eq, ccwExact_collinear.2 hc]
          rfl
        · obtain ⟨rfl, h4, h5, -, h6, -⟩ := hturn τ h1 h2 h3 α hα
          have h6 := h6 rfl
          rwa [h4.close (ha.vec_ne hs) d2 (by linarith) (by linarith)]
      | true =>
        obtain ⟨n, N, h1, h2, h3⟩ := ha.sector_ccw A d hv (ha.next_mem hs) false
        rw [if_neg (by simp)] at *
        refine ⟨_, N, fun fuel hfuel => ?_, h2, fun τ g1 g2 g3 α hα => ?_⟩
        · rw [← h3 fuel hfuel]
          unfold sectorFrom
          rw [if_neg (by decide), hstart, hi, ccw_eq, ccwExact_collinear.2 hc]
          rfl
        · obtain ⟨rfl, h4, h5, h6, -, h7⟩ := hturn τ g1 g2 g3 α hα
          have h7 := h7 rfl
          have := ha.second A d hs hi (n := n) (fun i hi => by rw [iterate_succ_apply]; exact h1 i hi)
            (by rw [iterate_succ_apply]; exact h2)
          rw [iterate_succ_apply] at this
          rwa [h4.close (ha.vec_ne hs) (Turns.period.2 d2) (by linarith) (by linarith)]
    · -- the direction is behind in the sector
      have hc : cross start v < 0 := by
        have n1 : ¬ 0 < cross start v := by
          rw [c1]
          have := sin_neg_of_neg_of_neg_pi_lt (x := ρ sector - σ sector) (by linarith) (by linarith)
          linarith
        have n2 : cross start v ≠ 0 := by
          rw [Ne, c2]
          have := sin_neg_of_neg_of_neg_pi_lt (x := ρ sector - σ sector) (by linarith) (by linarith)
          linarith
        exact lt_of_le_of_ne (not_lt.1 n1) n2
      obtain ⟨n, N, h1, h2, h3⟩ := ha.sector_ccw A d hv (ha.next_mem hs) false
      rw [if_neg (by simp)] at *
      refine ⟨_, N, fun fuel hfuel => ?_, h2, fun τ g1 g2 g3 α hα => ?_⟩
      · rw [← h3 fuel hfuel]
        unfold sectorFrom
        rw [if_neg (by decide), hstart, hi, ccw_eq, ccwExact_clockwise.2 hc]
        rfl
      · obtain ⟨rfl, h4, h5, h6, -, -⟩ := hturn τ g1 g2 g3 α hα
        have := ha.second A d hs hi (n := n) (fun i hi => by rw [iterate_succ_apply]; exact h1 i hi)
          (by rw [iterate_succ_apply]; exact h2)
        rw [iterate_succ_apply] at this
        rwa [h4.close (ha.vec_ne hs) (Turns.period.2 d2) (by linarith) (by linarith)]
  · have hρ : θ sector ≤ ρ sector := not_lt.1 fun hc => hi ((ha.inSector_iff_lt A d hs).2 hc)
    rw [Bool.not_eq_true] at hi
    obtain ⟨n, N, h1, h2, h3⟩ := ha.sector_ccw A d hv (ha.next_mem hs) false
    rw [if_neg (by simp)] at *
    refine ⟨_, N, fun fuel hfuel => ?_, h2, fun τ g1 g2 g3 α hα => ?_⟩
    · rw [← h3 fuel hfuel]
      unfold sectorFrom
      rw [if_neg (by decide), hstart, hi]
      rfl
    · obtain ⟨rfl, h4, h5, h6, -, -⟩ := hturn τ g1 g2 g3 α hα
      have := ha.first A d hs (n := n + 1) (fun i hi' => by
        cases i with
        | zero => exact hi
        | succ i => rw [iterate_succ_apply]; exact h1 i (by omega)) (by rw [iterate_succ_apply]; exact h2)
      rw [iterate_succ_apply] at this
      rwa [h4.close (ha.vec_ne hs) d2 (by linarith) (by linarith)]

/-- `sector(plane, direction)` terminates and returns the sector one gets to by turning by less than half a turn, in
either direction. -/
theorem sectorInPlane_correct {f : T →+* ℝ} (hf : StrictMono f) (A : Option (Approx T K)) {dbg : Bool} {S : FlatTri T}
    (h : S.tri.Reachable dbg) (hS : IsFlat S) {V : Finset HE} (hV : V ∈ S.tri.vertexes)
    (hb : ∀ e ∈ V, S.tri.boundary e = false) {θ : HE → ℝ} (hθ : Corners f S V θ) {plane : HE} (hs : plane ∈ V)
    {v : Vec T} {α : ℝ} (h1 : -π < α) (h2 : α < π) (hα : Turns ((S.vec plane).map f) α (v.map f)) :
    ∃ e N, (∀ fuel ≥ N, S.sectorInPlane A fuel plane v = some (.ok e)) ∧ S.inSector A e v = true ∧
      TurnedInto S θ plane α e := by
  have ha := around hf h hS hV hb hθ
  have hpi := pi_pos
  have hv : v ≠ 0 := by
    rintro rfl
    obtain ⟨r, hr, e1⟩ := hα.symm
    apply ha.vec_ne hs
    rw [e1]
    ext <;> simp [rotate, Vec.map]
  obtain ⟨ρ, d⟩ := ha.exists_dir hv
  obtain ⟨d0, d1, d2⟩ := d plane hs
  have hne := ha.vec_ne hs
  obtain ⟨r, hr, e1, e2⟩ := (turns_self ((S.vec plane).map f)).cross_eq hα
  have hr := hr hne
  rw [sub_zero] at e1 e2
  rw [cross_map] at e1
  rw [dot_map] at e2
  have c1 : 0 < cross (S.vec plane) v ↔ 0 < sin α := by
    rw [← hf.lt_iff_lt, map_zero, e1]
    exact mul_pos_iff_of_pos_left hr
  have c2 : cross (S.vec plane) v < 0 ↔ sin α < 0 := by
    rw [← hf.lt_iff_lt, map_zero, e1]
    constructor
    · intro hc; exact neg_of_mul_neg_right hc hr.le
    · intro hc; exact mul_neg_of_pos_of_neg hr hc
  have hplane : S.inPlane A plane v = true := by
    unfold inPlane
    rw [Bool.or_eq_true, decide_eq_true_eq, decide_eq_true_eq, ccw_eq, Ne, ccwExact_collinear]
    by_contra hc
    push Not at hc
    have hcr : cross (S.vec plane) v = 0 := by rw [cross_comm, hc.1, neg_zero]
    have hz : α = 0 := by
      rcases lt_trichotomy α 0 with hlt | heq | hlt
      · exact absurd hcr (c2.2 (sin_neg_of_neg_of_neg_pi_lt hlt h1)).ne
      · exact heq
      · exact absurd hcr (c1.2 (sin_pos_of_pos_of_lt_pi hlt h2)).ne'
    have hd : 0 < dot v (S.vec plane) := by
      rw [dot_comm, ← hf.lt_iff_lt, map_zero, e2, hz, cos_zero]
      linarith
    rw [(orientation_same A).2 hd] at hc
    exact absurd hc.2 (by decide)
  rcases lt_trichotomy α 0 with hlt | heq | hlt
  · have hc := c2.2 (sin_neg_of_neg_of_neg_pi_lt hlt h1)
    have hcw : S.clockwise A v plane = true := by
      unfold clockwise
      rw [decide_eq_true_eq, ccw_eq, ccwExact_clockwise]
      exact hc
    obtain ⟨n, n1, n2, n3⟩ := ha.walk_back A hv hs hcw
    refine ⟨_, n + 2, fun fuel hfuel => ?_, n2, ?_⟩
    · unfold sectorInPlane
      rw [hplane, ccw_eq, ccwExact_clockwise.2 hc]
      simp only [Bool.not_true, Bool.false_eq_true, if_false]
      rw [n3 fuel hfuel]
      rfl
    · have := ha.last A d hs n1 n2
      rwa [(Turns.period.2 hα).close hne d2 (by linarith) (by linarith) |> eq_sub_of_add_eq]
  · have hc : cross (S.vec plane) v = 0 := by
      rw [heq, sin_zero, lt_self_iff_false] at c1 c2
      exact le_antisymm (not_lt.1 c1.1) (not_lt.1 c2.1)
    have hi : S.inSector A plane v = true :=
      (ha.inSector_iff_lt A d hs).2 (by rw [d2.close hne hα (by linarith) (by linarith), heq]; exact (ha.pos hs).1)
    refine ⟨plane, 0, fun fuel _ => ?_, hi, ?_⟩
    · unfold sectorInPlane
      rw [hplane, ccw_eq, ccwExact_collinear.2 hc]
      rfl
    · have := ha.first A d hs (n := 0) (fun i hi => absurd hi (by omega)) hi
      rwa [hα.close hne d2 (by linarith) (by linarith)]
  · have hc := c1.2 (sin_pos_of_pos_of_lt_pi hlt h2)
    have hcw : S.clockwise A v plane = false := by
      rw [← Bool.not_eq_true]
      unfold clockwise
      rw [decide_eq_true_eq, ccw_eq, ccwExact_clockwise]
      exact hc.not_gt
    obtain ⟨n, n1, n2, n3⟩ := ha.walk_ahead A hv hs hcw
    refine ⟨_, n + 2, fun fuel hfuel => ?_, n2, ?_⟩
    · unfold sectorInPlane
      rw [hplane, ccw_eq, ccwExact_ccw.2 hc]
      simp only [Bool.not_true, Bool.false_eq_true, if_false]
      rw [n3 fuel hfuel, iterate_succ_apply', Option.map_some, prev_next ha.flat]
    · have := ha.first A d hs n1 n2
      rwa [hα.close hne d2 (by linarith) (by linarith)]

/-- `sector(plane, direction)` throws if the direction is opposite to the half edge. -/
theorem sectorInPlane_rejects {f : T →+* ℝ} (hf : StrictMono f) (A : Option (Approx T K)) {S : FlatTri T} {plane : HE}
    (hne : S.vec plane ≠ 0) {v : Vec T} (hα : Turns ((S.vec plane).map f) π (v.map f)) (fuel : ℕ) :
    S.sectorInPlane A fuel plane v = some (.error .invalidArgument) := by
  obtain ⟨r, hr, e1, e2⟩ := (turns_self ((S.vec plane).map f)).cross_eq hα
  have hr := hr (map_ne_zero f hf hne)
  rw [sub_zero, sin_pi, mul_zero] at e1
  rw [sub_zero, cos_pi, mul_neg, mul_one] at e2
  rw [cross_map, map_eq_zero_iff f hf.injective] at e1
  rw [dot_map] at e2
  have hd : dot v (S.vec plane) < 0 := by
    rw [dot_comm, ← hf.lt_iff_lt, map_zero, e2]; linarith
  have hp : S.inPlane A plane v = false := by
    unfold inPlane
    rw [ccw_eq, ccwExact_collinear.2 (by rw [cross_comm, e1, neg_zero]), orientation_eq A hd.ne,
      orientationExact_opposite.2 hd]
    rfl
  unfold sectorInPlane
  rw [hp]
  rfl

/-- `sector(plane, vertical, direction)` terminates and, when half edge and direction are at angles `p` and `q` of less
than a quarter turn from the vertical, returns the sector one gets to by turning by `q - p`. -/
theorem sectorInHalfPlane_correct {f : T →+* ℝ} (hf : StrictMono f) (A : Option (Approx T K)) {dbg : Bool}
    {S : FlatTri T} (h : S.tri.Reachable dbg) (hS : IsFlat S) {V : Finset HE} (hV : V ∈ S.tri.vertexes)
    (hb : ∀ e ∈ V, S.tri.boundary e = false) {θ : HE → ℝ} (hθ : Corners f S V θ) {plane : HE} (hs : plane ∈ V)
    {vertical v : Vec T} (hvert : vertical ≠ 0) {p q : ℝ} (hp : -(π / 2) < p ∧ p < π / 2)
    (hq : -(π / 2) < q ∧ q < π / 2) (h1 : Turns (vertical.map f) p ((S.vec plane).map f))
    (h2 : Turns (vertical.map f) q (v.map f)) :
    ∃ e N, (∀ fuel ≥ N, S.sectorInHalfPlane A fuel plane vertical v = some (.ok e)) ∧ S.inSector A e v = true ∧
      TurnedInto S θ plane (q - p) e := by
  have ha := around hf h hS hV hb hθ
  have hpi := pi_pos
  have hvne := map_ne_zero f hf hvert
  have hv : v ≠ 0 := by
    rintro rfl
    obtain ⟨r, hr, e1⟩ := h2.symm
    apply hvne
    rw [e1]
    ext <;> simp [rotate, Vec.map]
  -- the start of the half plane
  set w : Vec T := ⟨vertical.y, -vertical.x⟩ with hw
  have hw0 : w ≠ 0 := by
    intro hc
    apply hvert
    have e1 : vertical.y = 0 := congrArg Vec.x hc
    have e2 : -vertical.x = 0 := congrArg Vec.y hc
    ext
    · exact neg_eq_zero.1 e2
    · exact e1
  have hwt : Turns (vertical.map f) (-(π / 2)) (w.map f) := by
    refine ⟨1, one_pos, ?_⟩
    ext <;> simp [hw, rotate, Vec.map]
  have hhalf : ∀ e, S.inHalfPlane A e vertical = S.clockwise A w e := by
    intro e
    unfold inHalfPlane clockwise
    congr 1
    rw [orientation_same, ccw_eq, ccwExact_clockwise]
    have : cross (S.vec e) w = -dot (S.vec e) vertical := by simp only [cross, dot, hw]; ring
    rw [this, neg_neg_iff_pos]
  obtain ⟨ρ, d⟩ := ha.exists_dir hv
  obtain ⟨σ, dw⟩ := ha.exists_dir hw0
  obtain ⟨s0, s1, s2⟩ := dw plane hs
  have hdot : 0 < dot (S.vec plane) vertical ∧ 0 < dot v vertical := by
    obtain ⟨r, hr, -, e1⟩ := (turns_self (vertical.map f)).cross_eq h1
    obtain ⟨r', hr', -, e2⟩ := (turns_self (vertical.map f)).cross_eq h2
    rw [sub_zero, dot_map] at e1 e2
    rw [dot_comm (S.vec plane), dot_comm v, ← hf.lt_iff_lt, ← hf.lt_iff_lt, map_zero, e1, e2]
    exact ⟨mul_pos (hr hvne) (cos_pos_of_mem_Ioo ⟨hp.1, hp.2⟩), mul_pos (hr' hvne) (cos_pos_of_mem_Ioo ⟨hq.1, hq.2⟩)⟩
  have hcw : S.clockwise A w plane = true := by
    rw [← hhalf]
    unfold inHalfPlane
    rw [decide_eq_true_eq, orientation_same]
    exact hdot.1
  obtain ⟨n, n1, n2, n3⟩ := ha.walk_back A hw0 hs hcw
  set e' := S.tri.previousAtVertex^[n + 1] plane with he'
  have hm : e' ∈ V := ha.prev_iterate_mem hs (n + 1)
  obtain ⟨m, m1, m2, m3⟩ := ha.walk_sector A hv hm
  refine ⟨_, max (n + 2) (m + 1), fun fuel hfuel => ?_, m2, ?_⟩
  · unfold sectorInHalfPlane
    rw [hhalf, hcw, (orientation_same A).2 hdot.2]
    simp only [Bool.not_true, Bool.false_eq_true, if_false, ne_eq, not_true_eq_false]
    have : (fun e => S.inHalfPlane A e vertical) = S.clockwise A w := funext hhalf
    rw [this, n3 fuel (by omega)]
    change Option.map _ (walk _ _ fuel _) = _
    rw [m3 fuel (by omega)]
    rfl
  · have hlast := ha.last A dw hs n1 n2
    have hfirst := ha.first A d hm m1 m2
    -- the angle from the half edge at the beginning of the half plane
    have hback : S.tri.nextAtVertex^[n + 1] e' = plane := next_prev_iterate ha.flat plane (n + 1)
    have hmid : ∀ i < n, S.inSector A (S.tri.nextAtVertex^[i] (S.tri.nextAtVertex e')) w = false := by
      intro i hi
      have := n1 (n - 1 - i) (by omega)
      have e1 : S.tri.nextAtVertex^[i] (S.tri.nextAtVertex e') = S.tri.previousAtVertex^[n - 1 - i + 1] plane := by
        rw [← iterate_succ_apply, he', show n + 1 = (i + 1) + (n - 1 - i + 1) by omega, iterate_add_apply,
          next_prev_iterate ha.flat]
      rw [e1]; exact this
    have hu : arc S θ e' (n + 1) = σ e' + 2 * π - σ plane := by
      rw [add_comm n 1, arc_add, iterate_one, arc_one, ha.arc_until A dw (ha.next_mem hm) hmid, ha.gap A dw hm, if_pos n2,
        ← iterate_succ_apply, hback]
      ring
    -- the angles from the vertical
    obtain ⟨g0, g1, g2⟩ := dw e' hm
    have hθe := (ha.inSector_iff_lt A dw hm).1 n2
    have hθπ := (ha.pos hm).2
    have hσ : σ plane = 3 * π / 2 - p := by
      have t1 : Turns ((S.vec plane).map f) (-p + -(π / 2)) (w.map f) := h1.symm.trans hwt
      have t2 := Turns.period.2 t1
      rw [s2.close (ha.vec_ne hs) t2 (by linarith [hp.1]) (by linarith [hp.1])]
      ring
    have hρ : ρ e' = σ e' + π / 2 + q := by
      obtain ⟨f0, f1, f2⟩ := d e' hm
      have t1 : Turns ((S.vec e').map f) (σ e' + -(-(π / 2)) + q) (v.map f) := (g2.trans hwt.symm).trans h2
      rw [f2.close (ha.vec_ne hm) t1 (by linarith [hq.1]) (by linarith [hq.1])]
      ring
    obtain ⟨f1, f2⟩ : arc S θ e' m ≤ ρ e' ∧ ρ e' < arc S θ e' (m + 1) := by
      have hmm := ha.iterate_mem hm m
      constructor
      · rw [ha.arc_until A d hm m1]
        linarith [(d _ hmm).1]
      · rw [arc_succ, ha.arc_until A d hm m1]
        linarith [(ha.inSector_iff_lt A d hmm).1 m2]
    refine ⟨e', n + 1, m, hback, rfl, ?_, ?_⟩
    · rw [hu, hσ]; linarith
    · rw [hu, hσ]; linarith

/-! ### C69: turning clockwise -/

/-- `sector(start, CLOCKWISE, direction, exclude)` terminates and returns the first sector one gets to by turning
clockwise to the direction, except when there is more than one full turn at the vertex and the direction is in the
interior of the sector at `start`. -/
theorem sector_clockwise_partial {f : T →+* ℝ} (hf : StrictMono f) (A : Option (Approx T K)) {dbg : Bool} {S : FlatTri T}
    (h : S.tri.Reachable dbg) (hS : IsFlat S) {V : Finset HE} (hV : V ∈ S.tri.vertexes)
    (hb : ∀ e ∈ V, S.tri.boundary e = false) {θ : HE → ℝ} (hθ : Corners f S V θ) {start : HE} (hs : start ∈ V)
    {v : Vec T} (hv : v ≠ 0) (exclude : Bool)
    (hi : (S.inSector A start v = true → Turns ((S.vec start).map f) 0 (v.map f)) ∨ ∑ e ∈ V, θ e = 2 * π) :
    ∃ e N, (∀ fuel ≥ N, S.sector A fuel start .clockwise v exclude = some (.ok e)) ∧ S.inSector A e v = true ∧
      ∀ α, FirstTurn ((S.vec start).map f) .clockwise (v.map f) exclude α → TurnedInto S θ start α e := by
  have ha := around hf h hS hV hb hθ
  have hpi := pi_pos
  obtain ⟨ρ, d⟩ := ha.exists_dir hv
  obtain ⟨n, N, h1, h2, h3⟩ := ha.sector_cw A d hv hs exclude
  refine ⟨_, N, h3, h2, fun α hα => ?_⟩
  obtain ⟨d0, d1, d2⟩ := d start hs
  rcases hα.eq (ha.vec_ne hs) d0 d1 d2 with ⟨hc, -⟩ | ⟨-, hα⟩
  · cases hc
  rw [hα]
  by_cases hz : ρ start = 0
  · have h0 : S.inSector A start v = true := (ha.inSector_iff_lt A d hs).2 (by rw [hz]; exact (ha.pos hs).1)
    cases exclude with
    | false =>
      rw [if_pos ⟨hz, rfl⟩]
      have hq : ¬ (ρ start = 0 ∧ false = true) := by simp
      simp only [if_neg hq] at h1 h2 ⊢
      cases n with
      | zero =>
        have := ha.first A d hs (n := 0) (fun i hi => absurd hi (by omega)) h0
        rwa [hz] at this
      | succ n =>
        have := h1 0 (by omega)
        rw [iterate_zero_apply, h0] at this
        cases this
    | true =>
      have hq : ρ start = 0 ∧ true = true := ⟨hz, rfl⟩
      have hq' : ¬ (ρ start = 0 ∧ true = false) := by simp
      rw [if_neg hq']
      rw [if_pos hq] at h1 h2
      rw [if_pos hq]
      have := ha.last A d hs (n := n) (fun i hi => by rw [iterate_succ_apply]; exact h1 i hi)
        (by rw [iterate_succ_apply]; exact h2)
      rwa [iterate_succ_apply] at this
  · have hq : ¬ (ρ start = 0 ∧ exclude = true) := fun hc => hz hc.1
    have hq' : ¬ (ρ start = 0 ∧ exclude = false) := fun hc => hz hc.1
    simp only [if_neg hq, if_neg hq'] at h1 h2 ⊢
    cases n with
    | zero =>
      rw [iterate_zero_apply] at h2 ⊢
      rcases hi with hi | hi
      · exact absurd (d2.close (ha.vec_ne hs) (hi h2) (by linarith) (by linarith)) hz
      · rw [← hi]
        have := ha.first A d hs (n := 0) (fun i hi => absurd hi (by omega)) h2
        exact ha.lap hs this
    | succ n => exact ha.last A d hs (fun i hi => h1 (i + 1) (by omega)) h2

/-- `sector(sector, start, CLOCKWISE, direction, exclude)` terminates and returns the first sector one gets to by turning
clockwise from the start direction to the direction, except when there is more than one full turn at the vertex and the
direction is in the interior of the initial sector but not clockwise from the start direction. -/
theorem sectorFrom_clockwise_partial {f : T →+* ℝ} (hf : StrictMono f) (A : Option (Approx T K)) {dbg : Bool}
    {S : FlatTri T} (h : S.tri.Reachable dbg) (hS : IsFlat S) {V : Finset HE} (hV : V ∈ S.tri.vertexes)
    (hb : ∀ e ∈ V, S.tri.boundary e = false) {θ : HE → ℝ} (hθ : Corners f S V θ) {sector : HE} (hs : sector ∈ V)
    {start v : Vec T} (hstart : S.inSector A sector start = true) (hv : v ≠ 0) (exclude : Bool)
    (hex : (S.inSector A sector v = true →
        cross start v < 0 ∨ cross start v = 0 ∧ exclude = false ∨ cross (S.vec sector) v = 0) ∨ ∑ e ∈ V, θ e = 2 * π) :
    ∃ e N, (∀ fuel ≥ N, S.sectorFrom A fuel sector start .clockwise v exclude = some (.ok e)) ∧
      S.inSector A e v = true ∧
      ∀ τ, 0 ≤ τ → τ < 2 * π → Turns ((S.vec sector).map f) τ (start.map f) →
        ∀ α, FirstTurn (start.map f) .clockwise (v.map f) exclude α → TurnedInto S θ sector (τ + α) e := by
  have ha := around hf h hS hV hb hθ
  have hpi := pi_pos
  have hstart0 : start ≠ 0 := by
    rintro rfl
    rw [inSector_iff] at hstart
    have := hstart.2
    rw [cross_zero_right] at this
    exact lt_irrefl _ this
  obtain ⟨ρ, d⟩ := ha.exists_dir hv
  obtain ⟨σ, ds⟩ := ha.exists_dir hstart0
  obtain ⟨d0, d1, d2⟩ := d sector hs
  obtain ⟨s0, s1, s2⟩ := ds sector hs
  have hσ : σ sector < θ sector := (ha.inSector_iff_lt A ds hs).1 hstart
  obtain ⟨t0, t1⟩ := ha.pos hs
  have d2' : Turns ((S.vec sector).map f) (ρ sector - 2 * π) (v.map f) := by
    rw [← Turns.period, sub_add_cancel]; exact d2
  -- the angle we turn by
  have hturn : ∀ τ, 0 ≤ τ → τ < 2 * π → Turns ((S.vec sector).map f) τ (start.map f) →
        ∀ α, FirstTurn (start.map f) .clockwise (v.map f) exclude α →
        τ = σ sector ∧ Turns ((S.vec sector).map f) (σ sector + α) (v.map f) ∧ α ≤ 0 ∧ -(2 * π) ≤ α ∧
          (exclude = false → -(2 * π) < α) ∧ (exclude = true → α < 0) := by
    intro τ h1 h2 h3 α hα
    have e1 : τ = σ sector := Turns.unique (ha.vec_ne hs) ⟨h1, h2⟩ ⟨s0, s1⟩ h3 s2
    refine ⟨e1, s2.trans hα.1, ?_⟩
    have := hα.2
    cases exclude <;> simp only at this <;> refine ⟨by linarith, by linarith, ?_, ?_⟩ <;> intro hc
    · linarith
    · cases hc
    · cases hc
    · linarith
  by_cases hi : S.inSector A sector v = true
  · have hρ := (ha.inSector_iff_lt A d hs).1 hi
    obtain ⟨r, hr, e1, -⟩ := s2.cross_eq d2
    have hr := hr (ha.vec_ne hs)
    rw [cross_map] at e1
    have c1 : 0 < cross start v ↔ 0 < sin (ρ sector - σ sector) := by
      rw [← hf.lt_iff_lt, map_zero, e1]
      exact mul_pos_iff_of_pos_left hr
    have c2 : cross start v = 0 ↔ sin (ρ sector - σ sector) = 0 := by
      rw [← map_eq_zero_iff f hf.injective, e1, mul_eq_zero]
      exact ⟨fun hc => hc.resolve_left hr.ne', Or.inr⟩
    have hfirst := ha.first A d hs (n := 0) (fun i hi => absurd hi (by omega)) hi
    rw [iterate_zero_apply] at hfirst
    -- the direction coincides with the half edge if they are collinear
    have hcol : cross (S.vec sector) v = 0 → ρ sector = 0 := by
      intro hc
      by_contra hz
      have hp : 0 < ρ sector := lt_of_le_of_ne d0 (Ne.symm hz)
      have := (d2.cross_sign (ha.vec_ne hs)).1.2 (sin_pos_of_pos_of_lt_pi hp (by linarith))
      rw [cross_map, hc, map_zero] at this
      exact lt_irrefl _ this
    rcases lt_trichotomy (ρ sector) (σ sector) with hlt | heq | hlt
    · -- the direction is clockwise from the start, in the same sector
      have hc : cross start v < 0 := by
        have hn := sin_neg_of_neg_of_neg_pi_lt (x := ρ sector - σ sector) (by linarith) (by linarith)
        have n1 : ¬ 0 < cross start v := by rw [c1]; linarith
        have n2 : cross start v ≠ 0 := by rw [Ne, c2]; linarith
        exact lt_of_le_of_ne (not_lt.1 n1) n2
      refine ⟨sector, 0, fun fuel _ => ?_, hi, fun τ h1 h2 h3 α hα => ?_⟩
      · unfold sectorFrom
        rw [if_neg (by decide), hstart, hi, ccw_eq, ccwExact_clockwise.2 hc]
        rfl
      · obtain ⟨rfl, h4, h5, h6, -, -⟩ := hturn τ h1 h2 h3 α hα
        rwa [h4.close (ha.vec_ne hs) d2 (by linarith) (by linarith)]
    · -- the direction is where we start
      have hc := c2.2 (by rw [heq, sub_self, sin_zero])
      cases exclude with
      | false =>
        refine ⟨sector, 0, fun fuel _ => ?_, hi, fun τ h1 h2 h3 α hα => ?_⟩
        · unfold sectorFrom
          rw [if_neg (by decide), hstart, hi, ccw_eq, ccwExact_collinear.2 hc]
          rfl
        · obtain ⟨rfl, h4, h5, -, h6, -⟩ := hturn τ h1 h2 h3 α hα
          have h6 := h6 rfl
          rwa [h4.close (ha.vec_ne hs) d2 (by linarith) (by linarith)]
      | true =>
        have hi' : (S.inSector A sector v = true → Turns ((S.vec sector).map f) 0 (v.map f)) ∨ ∑ e ∈ V, θ e = 2 * π := by
          refine hex.imp_left fun hx hx' => ?_
          rcases hx hx' with hx | hx | hx
          · rw [hc] at hx; exact absurd hx (lt_irrefl _)
          · exact absurd hx.2 (by simp)
          · rw [← hcol hx]; exact d2
        obtain ⟨e, N, h1, h2, h3⟩ := sector_clockwise_partial hf A h hS hV hb hθ hs hv true hi'
        refine ⟨e, N, fun fuel hfuel => ?_, h2, fun τ g1 g2 g3 α hα => ?_⟩
        · rw [← h1 fuel hfuel]
          unfold sectorFrom
          rw [if_neg (by decide), hstart, hi, ccw_eq, ccwExact_collinear.2 hc]
          rfl
        · obtain ⟨rfl, h4, h5, h6, -, h7⟩ := hturn τ g1 g2 g3 α hα
          have h7 := h7 rfl
          rw [h4.close (ha.vec_ne hs) d2' (by linarith) (by linarith)]
          exact h3 _ ⟨d2', by simp only; exact ⟨by linarith, by linarith⟩⟩
    · -- the direction is counterclockwise from the start, in the same sector
      have hc := c1.2 (sin_pos_of_pos_of_lt_pi (by linarith) (by linarith))
      have hsum : ∑ e ∈ V, θ e = 2 * π := by
        rcases hex with hx | hx
        · rcases hx hi with hx | hx | hx
          · exact absurd hc hx.not_gt
          · rw [hx.1] at hc; exact absurd hc (lt_irrefl _)
          · have := hcol hx; linarith
        · exact hx
      obtain ⟨e, N, h1, h2, h3⟩ := sector_clockwise_partial hf A h hS hV hb hθ hs hv true (Or.inr hsum)
      refine ⟨e, N, fun fuel hfuel => ?_, h2, fun τ g1 g2 g3 α hα => ?_⟩
      · rw [← h1 fuel hfuel]
        unfold sectorFrom
        rw [if_neg (by decide), hstart, hi, ccw_eq, ccwExact_ccw.2 hc]
        rfl
      · obtain ⟨rfl, h4, h5, h6, -, -⟩ := hturn τ g1 g2 g3 α hα
        rw [h4.close (ha.vec_ne hs) d2' (by linarith) (by linarith)]
        exact h3 _ ⟨d2', by simp only; exact ⟨by linarith, by linarith⟩⟩
  · have hρ : θ sector ≤ ρ sector := not_lt.1 fun hc => hi ((ha.inSector_iff_lt A d hs).2 hc)
    obtain ⟨e, N, h1, h2, h3⟩ := sector_clockwise_partial hf A h hS hV hb hθ hs hv true (Or.inl fun hc => absurd hc hi)
    rw [Bool.not_eq_true] at hi
    refine ⟨e, N, fun fuel hfuel => ?_, h2, fun τ g1 g2 g3 α hα => ?_⟩
    · rw [← h1 fuel hfuel]
      unfold sectorFrom
      rw [if_neg (by decide), hstart, hi]
      rfl
    · obtain ⟨rfl, h4, h5, h6, -, -⟩ := hturn τ g1 g2 g3 α hα
      rw [h4.close (ha.vec_ne hs) d2' (by linarith) (by linarith)]
      exact h3 _ ⟨d2', by simp only; exact ⟨by linarith, by linarith⟩⟩

/-- What the header promises about `sector(start, CLOCKWISE, direction, exclude)`. -/
def ClockwiseClaim : Prop :=
  ∀ (f : ℤ →+* ℝ), StrictMono f → ∀ (dbg : Bool) (S : FlatTri ℤ), S.tri.Reachable dbg → IsFlat S →
    ∀ V ∈ S.tri.vertexes, (∀ e ∈ V, S.tri.boundary e = false) → ∀ θ, Corners f S V θ →
    ∀ start ∈ V, ∀ v : Vec ℤ, v ≠ 0 → ∀ exclude : Bool,
    ∃ e N, (∀ fuel ≥ N, S.sector (none : Option (Approx ℤ ℚ)) fuel start .clockwise v exclude = some (.ok e)) ∧
      ∀ α, FirstTurn ((S.vec start).map f) .clockwise (v.map f) exclude α → TurnedInto S θ start α e

/-- What the header promises about `sector(sector, start, CLOCKWISE, direction, exclude)`. -/
def ClockwiseFromClaim : Prop :=
  ∀ (f : ℤ →+* ℝ), StrictMono f → ∀ (dbg : Bool) (S : FlatTri ℤ), S.tri.Reachable dbg → IsFlat S →
    ∀ V ∈ S.tri.vertexes, (∀ e ∈ V, S.tri.boundary e = false) → ∀ θ, Corners f S V θ →
    ∀ sector ∈ V, ∀ start : Vec ℤ, S.inSector (none : Option (Approx ℤ ℚ)) sector start = true →
    ∀ v : Vec ℤ, v ≠ 0 → ∀ exclude : Bool,
    ∃ e N, (∀ fuel ≥ N,
        S.sectorFrom (none : Option (Approx ℤ ℚ)) fuel sector start .clockwise v exclude = some (.ok e)) ∧
      ∀ τ, 0 ≤ τ → τ < 2 * π → Turns ((S.vec sector).map f) τ (start.map f) →
        ∀ α, FirstTurn (start.map f) .clockwise (v.map f) exclude α → TurnedInto S θ sector (τ + α) e

theorem ell_vertex : Finset.range 18 ∈ flatEll.tri.vertexes ∧ ∀ e ∈ Finset.range 18, flatEll.tri.boundary e = false := by
  decide +kernel

/-- In the L-shaped surface, turning clockwise from half edge 0 to a direction in the interior of its sector leads into
another sector. -/
theorem ell_turn {f : ℤ →+* ℝ} (hf : StrictMono f) {θ : HE → ℝ} (hθ : Corners f flatEll (Finset.range 18) θ) {ρ : ℝ}
    (h0 : 0 ≤ ρ) (h1 : ρ < 2 * π) (hρ : Turns ((flatEll.vec 0).map f) ρ ((⟨2, 1⟩ : Vec ℤ).map f)) :
    0 < ρ ∧ ¬ TurnedInto flatEll θ 0 (ρ - 2 * π) 0 := by
  have ha := around hf (ell_reachable true) flatEll_isFlat ell_vertex.1 ell_vertex.2 hθ
  have h0mem : (0 : HE) ∈ Finset.range 18 := by decide
  obtain ⟨σ, d⟩ := ha.exists_dir (v := ⟨2, 1⟩) (by decide)
  obtain ⟨d0, d1, d2⟩ := d 0 h0mem
  have e1 : ρ = σ 0 := Turns.unique (ha.vec_ne h0mem) ⟨h0, h1⟩ ⟨d0, d1⟩ hρ d2
  constructor
  · rcases h0.eq_or_lt with hz | hz
    · exfalso
      rw [← hz] at hρ
      have := (hρ.cross_sign (ha.vec_ne h0mem)).1
      rw [sin_zero, lt_self_iff_false, iff_false, cross_map, ← map_zero f, hf.lt_iff_lt] at this
      exact this (by decide)
    · exact hz
  · intro hc
    have := ha.last (none : Option (Approx ℤ ℚ)) d h0mem (n := 5) (by decide +kernel) (by decide +kernel)
    rw [← e1] at this
    exact absurd (ha.unique h0mem hc this) (by decide +kernel)

/-- The claim fails when the direction is in the interior of the initial sector. -/
theorem clockwise_fails : ¬ ClockwiseClaim := by
  intro claim
  have hf : StrictMono (Int.castRingHom ℝ) := Int.cast_strictMono
  obtain ⟨θ, hθ⟩ := corners_exist hf (ell_reachable true) flatEll_isFlat ell_vertex.1 ell_vertex.2
  have ha := around hf (ell_reachable true) flatEll_isFlat ell_vertex.1 ell_vertex.2 hθ
  have h0mem : (0 : HE) ∈ Finset.range 18 := by decide
  have hv : (⟨2, 1⟩ : Vec ℤ) ≠ 0 := by decide
  obtain ⟨ρ, d⟩ := ha.exists_dir hv
  obtain ⟨d0, d1, d2⟩ := d 0 h0mem
  obtain ⟨g1, g2⟩ := ell_turn hf hθ d0 d1 d2
  obtain ⟨e, N, h1, h2⟩ := claim _ hf true flatEll (ell_reachable true) flatEll_isFlat _ ell_vertex.1 ell_vertex.2 θ hθ 0
    h0mem _ hv false
  obtain ⟨n, M, m1, m2, m3⟩ := ha.sector_cw (none : Option (Approx ℤ ℚ)) d hv h0mem false
  rw [if_neg (by simp)] at m1 m2 m3
  have he : e = 0 := by
    have e1 := (h1 (max N M) (le_max_left _ _)).symm.trans (m3 (max N M) (le_max_right _ _))
    cases n with
    | zero => injection e1 with e1; injection e1
    | succ n => exact absurd (m1 0 (by omega)) (by decide +kernel)
  rw [he] at h2
  refine g2 (h2 _ ⟨?_, ?_⟩)
  · rw [← Turns.period, sub_add_cancel]; exact d2
  · simp only
    constructor <;> linarith

/-- The claim fails in the same way when a start direction is given, even if it coincides with the direction. -/
theorem clockwiseFrom_fails : ¬ ClockwiseFromClaim := by
  intro claim
  have hf : StrictMono (Int.castRingHom ℝ) := Int.cast_strictMono
  obtain ⟨θ, hθ⟩ := corners_exist hf (ell_reachable true) flatEll_isFlat ell_vertex.1 ell_vertex.2
  have ha := around hf (ell_reachable true) flatEll_isFlat ell_vertex.1 ell_vertex.2 hθ
  have h0mem : (0 : HE) ∈ Finset.range 18 := by decide
  have hv : (⟨2, 1⟩ : Vec ℤ) ≠ 0 := by decide
  obtain ⟨ρ, d⟩ := ha.exists_dir hv
  obtain ⟨d0, d1, d2⟩ := d 0 h0mem
  obtain ⟨g1, g2⟩ := ell_turn hf hθ d0 d1 d2
  obtain ⟨e, N, h1, h2⟩ := claim _ hf true flatEll (ell_reachable true) flatEll_isFlat _ ell_vertex.1 ell_vertex.2 θ hθ 0
    h0mem ⟨2, 1⟩ (by decide +kernel) _ hv true
  obtain ⟨n, M, m1, m2, m3⟩ := ha.sector_cw (none : Option (Approx ℤ ℚ)) d hv h0mem true
  rw [if_neg (fun hc => g1.ne' hc.1)] at m1 m2 m3
  have hcode : ∀ fuel, flatEll.sectorFrom (none : Option (Approx ℤ ℚ)) fuel 0 ⟨2, 1⟩ .clockwise ⟨2, 1⟩ true =
      flatEll.sector (none : Option (Approx ℤ ℚ)) fuel 0 .clockwise ⟨2, 1⟩ true := by
    intro fuel
    have i1 : flatEll.inSector (none : Option (Approx ℤ ℚ)) 0 ⟨2, 1⟩ = true := by decide +kernel
    have i2 : Vec.ccw (none : Option (Approx ℤ ℚ)) ⟨2, 1⟩ ⟨2, 1⟩ = .collinear := by decide +kernel
    unfold sectorFrom
    rw [if_neg (by decide), i1, i2]
    rfl
  have he : e = 0 := by
    have e1 := (h1 (max N M) (le_max_left _ _)).symm.trans ((hcode _).trans (m3 (max N M) (le_max_right _ _)))
    cases n with
    | zero => injection e1 with e1; injection e1
    | succ n => exact absurd (m1 0 (by omega)) (by decide +kernel)
  rw [he] at h2
  refine g2 (h2 (ρ 0) d0 d1 d2 (-(2 * π)) ⟨?_, ?_⟩)
  · rw [← Turns.period, neg_add_cancel]; exact turns_self _
  · simp only
    constructor <;> linarith

/-! ### Examples -/

/-- The hypotheses are met by the vertex of the L-shaped surface. -/
example : ∃ (f : ℤ →+* ℝ) (θ : HE → ℝ), StrictMono f ∧ flatEll.tri.Reachable true ∧ IsFlat flatEll ∧
    Finset.range 18 ∈ flatEll.tri.vertexes ∧ (∀ e ∈ Finset.range 18, flatEll.tri.boundary e = false) ∧
    Corners f flatEll (Finset.range 18) θ :=
  have hf : StrictMono (Int.castRingHom ℝ) := Int.cast_strictMono
  let ⟨θ, hθ⟩ := corners_exist hf (ell_reachable true) flatEll_isFlat ell_vertex.1 ell_vertex.2
  ⟨_, θ, hf, ell_reachable true, flatEll_isFlat, ell_vertex.1, ell_vertex.2, hθ⟩

/-- The three sectors of the L-shaped surface which contain the direction (2, 1). -/
example : ((Finset.range 18).filter fun e => flatEll.inSector (none : Option (Approx ℤ ℚ)) e ⟨2, 1⟩) = {0, 2, 4} := by
  decide +kernel

/-- Searching for this direction. -/
example : flatEll.sector (none : Option (Approx ℤ ℚ)) 20 0 .counterclockwise ⟨2, 1⟩ false = some (.ok 0) ∧
    flatEll.sector (none : Option (Approx ℤ ℚ)) 20 12 .counterclockwise ⟨2, 1⟩ false = some (.ok 4) ∧
    flatEll.sector (none : Option (Approx ℤ ℚ)) 20 12 .clockwise ⟨2, 1⟩ false = some (.ok 0) ∧
    flatEll.sector (none : Option (Approx ℤ ℚ)) 20 0 .clockwise ⟨1, 0⟩ true = some (.ok 2) ∧
    flatEll.sectorFrom (none : Option (Approx ℤ ℚ)) 20 0 ⟨2, 1⟩ .counterclockwise ⟨3, 1⟩ false = some (.ok 4) ∧
    flatEll.sectorFrom (none : Option (Approx ℤ ℚ)) 20 0 ⟨2, 1⟩ .clockwise ⟨3, 1⟩ false = some (.ok 0) ∧
    flatEll.sectorInPlane (none : Option (Approx ℤ ℚ)) 20 11 ⟨2, 1⟩ = some (.ok 0) ∧
    flatEll.sectorInPlane (none : Option (Approx ℤ ℚ)) 20 11 ⟨-2, -1⟩ = some (.ok 1) ∧
    flatEll.sectorInHalfPlane (none : Option (Approx ℤ ℚ)) 20 11 ⟨2, -1⟩ ⟨2, 1⟩ = some (.ok 0) := by
  decide +kernel

/-- The hypotheses about angles. -/
example : Turns ⟨1, 0⟩ (π / 4) ⟨1, 1⟩ ∧ Turns ⟨1, 0⟩ (-(π / 4)) ⟨1, -1⟩ ∧ Turns ⟨1, 0⟩ π ⟨-1, 0⟩ := by
  have h2 : (0 : ℝ) < √2 := by positivity
  have hs : √2 * (√2 / 2) = (1 : ℝ) := by
    rw [mul_div_assoc', Real.mul_self_sqrt (by norm_num)]; norm_num
  refine ⟨⟨√2, h2, ?_⟩, ⟨√2, h2, ?_⟩, turns_neg_self ⟨1, 0⟩ |> fun h => ?_⟩
  · ext <;> simp [rotate, hs]
  · ext <;> simp [rotate, hs]
  · have e : (-⟨1, 0⟩ : Vec ℝ) = ⟨-1, 0⟩ := by ext <;> simp
    rwa [e] at h

end Verif.C21
