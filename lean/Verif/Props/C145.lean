import Verif.Lemmas.CollapsedExamples
import Verif.Lemmas.CombinatorialDeformation
import Verif.Model.FlowDetect
import Verif.Props.C142
import Verif.Spec.FlowDetect

/-!
C145: the vertical connections that are detected when a flow component is decomposed start and end in the right sectors.
-/

set_option linter.unusedSectionVars false

namespace Verif.C145

open Verif Spec Tri FlatTri Examples Vec Real Tighten Function FlowDetect C140 C141

variable {T : Type} [CommRing T] [LinearOrder T] [IsStrictOrderedRing T]
variable {K : Type} [Field K] [LinearOrder K] [IsStrictOrderedRing K]

theorem turns_full {u v : Vec ℝ} {α : ℝ} (n : ℕ) : Turns u (α + n * (2 * π)) v ↔ Turns u α v := by
  induction n with
  | zero => simp
  | succ n ih =>
    rw [← ih, ← Turns.period (α := α + n * (2 * π))]
    push_cast
    rw [show α + n * (2 * π) + 2 * π = α + (n + 1) * (2 * π) by ring]

/-- The signs of products in terms of angles. -/
theorem signs {f : T →+* ℝ} (hf : StrictMono f) {v w : Vec T} (hv : v ≠ 0) {x : ℝ} (h : Turns (v.map f) x (w.map f)) :
    ((0 < cross v w ↔ 0 < sin x) ∧ (cross v w < 0 ↔ sin x < 0)) ∧ (0 < dot v w ↔ 0 < cos x) ∧ (dot v w < 0 ↔ cos x < 0) := by
  have hv0 := map_ne_zero f hf hv
  refine ⟨?_, ?_⟩
  · have := h.cross_sign hv0
    rwa [cross_map, ← map_zero f, hf.lt_iff_lt, hf.lt_iff_lt, map_zero] at this
  · obtain ⟨r, hr, e⟩ := h
    have hd := dot_self_pos hv0
    have e1 : dot (v.map f) (w.map f) = r * dot (v.map f) (v.map f) * cos x := by
      have := dot_rotate (v.map f) 0 x 1 r
      rw [rotate_zero, one_smul, one_mul, sub_zero, ← e] at this
      exact this
    rw [dot_map] at e1
    have hp : 0 < r * dot (v.map f) (v.map f) := mul_pos hr hd
    have a1 : 0 < dot v w ↔ 0 < f (dot v w) := by rw [← map_zero f, hf.lt_iff_lt]
    have a2 : dot v w < 0 ↔ f (dot v w) < 0 := by rw [← map_zero f, hf.lt_iff_lt]
    rw [a1, a2, e1]
    refine ⟨⟨fun h => (mul_pos_iff_of_pos_left hp).1 h, fun h => mul_pos hp h⟩, ⟨fun h => ?_, fun h => mul_neg_of_pos_of_neg hp h⟩⟩
    by_contra hc
    exact absurd h (not_lt.2 (mul_nonneg hp.le (not_lt.1 hc)))

theorem orientation_opposite' (A : Option (Approx T K)) {v w : Vec T} (h : dot v w < 0) : orientation A v w = .opposite := by
  rw [orientation_eq A h.ne]
  unfold orientationExact
  simp [h.ne, not_lt.2 h.le]

/-- Directions at most half a turn counterclockwise from the vertical. -/
theorem classify_west {f : T →+* ℝ} (hf : StrictMono f) (A : Option (Approx T K)) (dbg : Bool) {v w : Vec T} (hv : v ≠ 0) {x : ℝ}
    (h : Turns (v.map f) x (w.map f)) (h0 : 0 < x) (h1 : x < π) : ∃ c ∈ [Compass.northWest, .west, .southWest], classify A dbg v w = .ok c := by
  have := (signs hf hv h).1.1.2 (sin_pos_of_pos_of_lt_pi h0 h1)
  unfold classify
  rw [show Vec.ccw A v w = .counterclockwise by rw [ccw_eq, ccwExact_ccw]; exact this]
  cases Vec.orientation A v w <;> simp

theorem classify_south {f : T →+* ℝ} (hf : StrictMono f) (A : Option (Approx T K)) (dbg : Bool) {v w : Vec T} (hv : v ≠ 0)
    (h : Turns (v.map f) π (w.map f)) : classify A dbg v w = .ok .south := by
  obtain ⟨⟨h1, h2⟩, h3, h4⟩ := signs hf hv h
  rw [sin_pi] at h1 h2
  rw [cos_pi] at h4
  unfold classify
  rw [show Vec.ccw A v w = .collinear by
    rw [ccw_eq, ccwExact_collinear]
    exact le_antisymm (not_lt.1 fun h => lt_irrefl _ (h1.1 h)) (not_lt.1 fun h => lt_irrefl _ (h2.1 h)),
    orientation_opposite' A (h4.2 (by norm_num))]

theorem classify_north {f : T →+* ℝ} (hf : StrictMono f) (A : Option (Approx T K)) (dbg : Bool) {v w : Vec T} (hv : v ≠ 0)
    (h : Turns (v.map f) 0 (w.map f)) : classify A dbg v w = .ok .north := by
  obtain ⟨⟨h1, h2⟩, h3, h4⟩ := signs hf hv h
  rw [sin_zero] at h1 h2
  rw [cos_zero] at h3
  unfold classify
  rw [show Vec.ccw A v w = .collinear by
    rw [ccw_eq, ccwExact_collinear]
    exact le_antisymm (not_lt.1 fun h => lt_irrefl _ (h1.1 h)) (not_lt.1 fun h => lt_irrefl _ (h2.1 h)),
    (orientation_same A).2 (h3.2 one_pos)]

theorem classify_east {f : T →+* ℝ} (hf : StrictMono f) (A : Option (Approx T K)) (dbg : Bool) {v w : Vec T} (hv : v ≠ 0) {x : ℝ}
    (h : Turns (v.map f) x (w.map f)) (h0 : -π < x) (h1 : x < 0) : ∃ c ∈ [Compass.southEast, .east, .northEast], classify A dbg v w = .ok c := by
  have := (signs hf hv h).1.2.2 (sin_neg_of_neg_of_neg_pi_lt h1 h0)
  unfold classify
  rw [show Vec.ccw A v w = .clockwise by rw [ccw_eq, ccwExact_clockwise]; exact this]
  cases Vec.orientation A v w <;> simp

theorem walk_stop {A : Option (Approx T K)} {dbg : Bool} {S : FlatTri T} {v : Vec T} {step : HE → HE} {stop : List Compass} {e : HE}
    {c : Compass} (hc : classify A dbg v (S.vec e) = .ok c) (hs : c ∈ stop) (fuel : ℕ) :
    FlowDetect.walk A dbg S v step stop (fuel + 1) e = some (.ok e) := by
  rw [FlowDetect.walk, hc]
  simp only
  rw [if_pos hs]

theorem walk_go {A : Option (Approx T K)} {dbg : Bool} {S : FlatTri T} {v : Vec T} {step : HE → HE} {stop : List Compass} {e : HE}
    {c : Compass} (hc : classify A dbg v (S.vec e) = .ok c) (hs : c ∉ stop) (fuel : ℕ) :
    FlowDetect.walk A dbg S v step stop (fuel + 1) e = FlowDetect.walk A dbg S v step stop fuel (step e) := by
  rw [FlowDetect.walk, hc]
  simp only
  rw [if_neg hs]

/-- Walking from the first to the last of a sequence of half edges. -/
theorem walk_along {A : Option (Approx T K)} {dbg : Bool} {S : FlatTri T} {v : Vec T} {step : HE → HE} {stop : List Compass} (g : ℕ → HE)
    {n : ℕ} (hg : ∀ i < n, step (g i) = g (i + 1)) (hgo : ∀ i < n, ∃ c, classify A dbg v (S.vec (g i)) = .ok c ∧ c ∉ stop)
    (hstop : ∃ c, classify A dbg v (S.vec (g n)) = .ok c ∧ c ∈ stop) {fuel : ℕ} (hf : n < fuel) :
    FlowDetect.walk A dbg S v step stop fuel (g 0) = some (.ok (g n)) := by
  induction n generalizing g fuel with
  | zero =>
    obtain ⟨fuel, rfl⟩ : ∃ k, fuel = k + 1 := ⟨fuel - 1, by omega⟩
    obtain ⟨c, h1, h2⟩ := hstop
    exact walk_stop h1 h2 fuel
  | succ n ih =>
    obtain ⟨fuel, rfl⟩ : ∃ k, fuel = k + 1 := ⟨fuel - 1, by omega⟩
    obtain ⟨c, h1, h2⟩ := hgo 0 (by omega)
    rw [walk_go h1 h2, hg 0 (by omega)]
    exact ih (fun i => g (i + 1)) (fun i hi => hg (i + 1) (by omega)) (fun i hi => hgo (i + 1) (by omega)) hstop (by omega)

/-- Walking clockwise to the vertical. -/
theorem source_walk {f : T →+* ℝ} (hf : StrictMono f) (A : Option (Approx T K)) {debug : Bool} {S : FlatTri T} (h : Closed debug S)
    {θ : HE → ℝ} (hθ : AllCorners f S θ) (dbg : Bool) {V : Finset HE} (hV : V ∈ S.tri.vertexes) {s : HE} (hs : s ∈ V) {u v : Vec T}
    (hv : v ≠ 0) {σ γ : ℝ} (hu : InCorner f S θ s σ u) (h0 : 0 < γ) (h1 : γ ≤ π) (ht : Turns (v.map f) γ (u.map f)) :
    ∃ e ∈ V, ∃ τ N, (∀ fuel ≥ N, FlowDetect.walk A dbg S v S.tri.previousAtVertex [.north, .northEast, .east, .southEast] fuel s = some (.ok e)) ∧
      InCorner f S θ e τ v ∧ TurnsTo S θ e τ γ s σ := by
  have hpi := pi_pos
  obtain ⟨hc, ha⟩ := around hf h hθ hV
  obtain ⟨k, -, -, hk, hΘ⟩ := C20.angle_correct f hf h.reachable h.flat hV fun e he => (nonboundary h hV e he).2
  have hΘ := hΘ θ hc
  have hk' : (1 : ℝ) ≤ k := by exact_mod_cast hk
  obtain ⟨p, -, hp1, hp2⟩ := ha.period
  have hp1 := hp1 s hs
  have hp2 := hp2 s hs
  have hpk : arc S θ s p = k * (2 * π) := by rw [hp2, hΘ]
  set B := arc S θ s p + σ - γ with hB
  obtain ⟨m, m1, m2⟩ := ha.crossing hs (B := B) (by rw [hB, hpk]; nlinarith [hu.1])
  have hmp : m ≤ p := by
    by_contra hc
    have h3 : arc S θ s (p + 1) ≤ arc S θ s m := by
      rcases Nat.lt_or_ge (p + 1) m with h4 | h4
      · exact (ha.arc_lt hs h4).le
      · rw [show m = p + 1 by omega]
    rw [arc_succ, hp1] at h3
    linarith [hu.2.1]
  have hpos : ∀ i, Turns (v.map f) (arc S θ s i - B) ((S.vec (S.tri.nextAtVertex^[i] s)).map f) := by
    intro i
    have := ht.trans (ha.turns_vec hs hu i)
    rw [show γ + (arc S θ s i - σ) = arc S θ s i - B + k * (2 * π) by rw [hB, hpk]; ring] at this
    exact (turns_full k).1 this
  refine ⟨S.tri.nextAtVertex^[m] s, ha.iterate_mem hs m, B - arc S θ s m, p - m + 1, fun fuel hfuel => ?_, ⟨by linarith, ?_, ?_⟩,
    h0.le, p - m, ?_, ?_⟩
  · have key := walk_along (A := A) (dbg := dbg) (S := S) (v := v) (step := S.tri.previousAtVertex)
      (stop := [.north, .northEast, .east, .southEast]) (fun i => S.tri.nextAtVertex^[p - i] s) (n := p - m) (fuel := fuel) ?_ ?_ ?_
      (by omega)
    · simp only [Nat.sub_zero, hp1] at key
      rwa [show p - (p - m) = m by omega] at key
    · intro i hi
      rw [show p - i = (p - (i + 1)) + 1 by omega, iterate_succ_apply']
      exact prev_next h.shut.flat _
    · intro i hi
      have g1 : arc S θ s (m + 1) ≤ arc S θ s (p - i) := by
        rcases Nat.lt_or_ge (m + 1) (p - i) with h4 | h4
        · exact (ha.arc_lt hs h4).le
        · rw [show p - i = m + 1 by omega]
      have g2 : arc S θ s (p - i) ≤ arc S θ s p := by
        rcases Nat.lt_or_ge (p - i) p with h4 | h4
        · exact (ha.arc_lt hs h4).le
        · rw [show p - i = p by omega]
      have g3 : arc S θ s (p - i) - B ≤ π := by
        rw [hB]
        linarith [hu.1]
      rcases g3.lt_or_eq with g4 | g4
      · obtain ⟨c, c1, c2⟩ := classify_west hf A dbg hv (hpos (p - i)) (by linarith) g4
        refine ⟨c, c2, ?_⟩
        revert c1
        cases c <;> decide
      · have := hpos (p - i)
        rw [g4] at this
        exact ⟨.south, classify_south hf A dbg hv this, by decide⟩
    · rw [show p - (p - m) = m by omega]
      rcases m1.lt_or_eq with g4 | g4
      · have hθm := ha.pos (ha.iterate_mem hs m)
        rw [arc_succ] at m2
        obtain ⟨c, c1, c2⟩ := classify_east hf A dbg hv (hpos m) (by linarith) (by linarith)
        refine ⟨c, c2, ?_⟩
        revert c1
        cases c <;> decide
      · have := hpos m
        rw [g4, sub_self] at this
        exact ⟨.north, classify_north hf A dbg hv this, by decide⟩
  · rw [arc_succ] at m2
    linarith
  · have := (hpos m).symm
    rwa [neg_sub] at this
  · rw [← iterate_add_apply, show p - m + m = p by omega, hp1]
  · have := arc_add (S := S) (θ := θ) s m (p - m)
    rw [show m + (p - m) = p by omega] at this
    linarith

/-- Walking counterclockwise to the other vertical direction. -/
theorem target_walk {f : T →+* ℝ} (hf : StrictMono f) (A : Option (Approx T K)) {debug : Bool} {S : FlatTri T} (h : Closed debug S)
    {θ : HE → ℝ} (hθ : AllCorners f S θ) (dbg : Bool) {V : Finset HE} (hV : V ∈ S.tri.vertexes) {s : HE} (hs : s ∈ V) {u v : Vec T}
    (hv : v ≠ 0) {σ γ : ℝ} (hu : InCorner f S θ s σ u) (h0 : 0 < γ) (h1 : γ ≤ π) (ht : Turns (u.map f) γ ((-v).map f)) :
    ∃ e ∈ V, ∃ τ N, ∃ x y, (∀ fuel ≥ N, FlowDetect.walk A dbg S v S.tri.nextAtVertex [.northWest, .west, .southWest] fuel s = some (.ok x) ∧
      FlowDetect.walk A dbg S v S.tri.nextAtVertex [.southEast, .east, .northEast] fuel x = some (.ok y)) ∧ S.tri.previousAtVertex y = e ∧
      InCorner f S θ e τ (-v) ∧ TurnsTo S θ s σ γ e τ := by
  have hpi := pi_pos
  obtain ⟨hc, ha⟩ := around hf h hθ hV
  set B := σ + γ with hB
  obtain ⟨m, m1, m2⟩ := ha.crossing hs (B := B) (by linarith [hu.1])
  have hσ := (ha.pos hs).2
  have hvn : Turns (v.map f) π ((-v).map f) := by
    have : (-v).map f = -(v.map f) := by ext <;> simp [Vec.map]
    rw [this]
    exact turns_neg_self _
  have hpos' : ∀ i, Turns ((-v).map f) (arc S θ s i - B) ((S.vec (S.tri.nextAtVertex^[i] s)).map f) := by
    intro i
    have := ht.symm.trans (ha.turns_vec hs hu i)
    rwa [show -γ + (arc S θ s i - σ) = arc S θ s i - B by rw [hB]; ring] at this
  have hpos : ∀ i, Turns (v.map f) (arc S θ s i - B + π) ((S.vec (S.tri.nextAtVertex^[i] s)).map f) := by
    intro i
    have := hvn.trans (hpos' i)
    rwa [add_comm] at this
  have hmono : ∀ {i j : ℕ}, i ≤ j → arc S θ s i ≤ arc S θ s j := by
    intro i j hij
    rcases Nat.lt_or_ge i j with h4 | h4
    · exact (ha.arc_lt hs h4).le
    · rw [show i = j by omega]
  have h00 : arc S θ s 0 = 0 := arc_zero s
  -- the first half edge to the west
  have hex : ∃ n, B - π < arc S θ s n := ⟨m + 1, by linarith⟩
  classical
  set n := Nat.find hex with hn
  have n1 : B - π < arc S θ s n := Nat.find_spec hex
  have n2 : ∀ i < n, arc S θ s i ≤ B - π := fun i hi => not_lt.1 (Nat.find_min hex hi)
  have n3 : arc S θ s n < B := by
    rcases Nat.eq_zero_or_pos n with h4 | h4
    · rw [h4, h00]
      linarith [hu.1]
    · have := n2 (n - 1) (by omega)
      have e : arc S θ s n = arc S θ s (n - 1) + θ (S.tri.nextAtVertex^[n - 1] s) := by
        rw [← arc_succ, show n - 1 + 1 = n by omega]
      have := (ha.pos (ha.iterate_mem hs (n - 1))).2
      linarith
  have hnm : n ≤ m := by
    by_contra hc
    have := hmono (show m + 1 ≤ n by omega)
    linarith
  refine ⟨S.tri.nextAtVertex^[m] s, ha.iterate_mem hs m, B - arc S θ s m, max (n + 1) (m + 1 - n + 1), S.tri.nextAtVertex^[n] s,
    S.tri.nextAtVertex^[m + 1] s, fun fuel hfuel => ⟨?_, ?_⟩, ?_, ⟨by linarith, ?_, ?_⟩, h0.le, m, rfl, by linarith⟩
  · refine walk_along (fun i => S.tri.nextAtVertex^[i] s) (fun i _ => (iterate_succ_apply' _ i s).symm) (fun i hi => ?_) ?_
      (by have := le_of_max_le_left hfuel; omega)
    · have k1 := n2 i hi
      have k2 : -σ - γ ≤ arc S θ s i - B := by
        have := hmono (Nat.zero_le i)
        linarith
      rcases k1.lt_or_eq with g4 | g4
      · obtain ⟨c, c1, c2⟩ := classify_east hf A dbg hv (hpos i) (by linarith [hu.2.1]) (by linarith)
        refine ⟨c, c2, ?_⟩
        revert c1
        cases c <;> decide
      · have := hpos i
        rw [show arc S θ s i - B + π = 0 by linarith] at this
        exact ⟨.north, classify_north hf A dbg hv this, by decide⟩
    · obtain ⟨c, c1, c2⟩ := classify_west hf A dbg hv (hpos n) (by linarith) (by linarith)
      exact ⟨c, c2, c1⟩
  · have := walk_along (A := A) (dbg := dbg) (S := S) (v := v) (step := S.tri.nextAtVertex) (stop := [.southEast, .east, .northEast])
      (fun i => S.tri.nextAtVertex^[n + i] s) (n := m + 1 - n) (fuel := fuel)
      (fun i _ => (iterate_succ_apply' _ (n + i) s).symm) (fun i hi => ?_) ?_ (by have := le_of_max_le_right hfuel; omega)
    · rwa [show n + (m + 1 - n) = m + 1 by omega] at this
    · have k1 := hmono (show n ≤ n + i by omega)
      have k2 := hmono (show n + i ≤ m by omega)
      rcases (k2.trans m1).lt_or_eq with g4 | g4
      · obtain ⟨c, c1, c2⟩ := classify_west hf A dbg hv (hpos (n + i)) (by linarith) (by linarith)
        refine ⟨c, c2, ?_⟩
        revert c1
        cases c <;> decide
      · have := hpos (n + i)
        rw [show arc S θ s (n + i) - B + π = π by linarith] at this
        exact ⟨.south, classify_south hf A dbg hv this, by decide⟩
    · rw [show n + (m + 1 - n) = m + 1 by omega]
      have k1 : arc S θ s (m + 1) - B < π := by
        rw [arc_succ]
        linarith [(ha.pos (ha.iterate_mem hs m)).2]
      have := hpos (m + 1)
      rw [show arc S θ s (m + 1) - B + π = (arc S θ s (m + 1) - B - π) + 2 * π by ring, Turns.period] at this
      obtain ⟨c, c1, c2⟩ := classify_east hf A dbg hv this (by linarith) (by linarith)
      exact ⟨c, c2, c1⟩
  · rw [iterate_succ_apply']
    exact prev_next h.shut.flat _
  · rw [arc_succ] at m2
    linarith
  · have := (hpos' m).symm
    rwa [neg_sub] at this

theorem vector_total (S : FlatTri T) (l : List (Bool × Saddle)) : S.chainVector (total l) = holonomy S (walked l) := by
  suffices key : ∀ (l : List (Bool × Saddle)) (c : ℕ → ℤ), S.chainVector (l.foldl (fun chain c =>
      if c.1 then fun i => chain i + c.2.chain i else fun i => chain i - c.2.chain i) c) = S.chainVector c + holonomy S (walked l) by
    have := key l fun _ => 0
    rwa [S.chainVector_zero, zero_add] at this
  intro l
  induction l with
  | nil => intro c; simp [walked, holonomy]
  | cons d l ih =>
    intro c
    rw [List.foldl_cons, ih, show walked (d :: l) = (if d.1 then d.2 else d.2.neg) :: walked l from rfl, holonomy_cons, ← add_assoc]
    congr 1
    obtain ⟨b, d⟩ := d
    cases b
    · have := Verif.chainVector_add_mul S c d.chain (-1)
      simp only [Bool.false_eq_true, if_false]
      rw [saddleVector_neg]
      rw [show (fun i => c i - d.chain i) = fun i => c i + -1 * d.chain i by funext i; ring, this]
      simp [FlatTri.saddleVector]
    · have := Verif.chainVector_add_mul S c d.chain 1
      simp only [if_true]
      rw [show (fun i => c i + d.chain i) = fun i => c i + 1 * d.chain i by funext i; ring, this]
      simp [FlatTri.saddleVector]

/-- A corner is determined by the angle by which one turns to it. -/
theorem corner_of_turn {f : T →+* ℝ} (hf : StrictMono f) {debug : Bool} {S : FlatTri T} (h : Closed debug S) {θ : HE → ℝ}
    (hθ : AllCorners f S θ) {V : Finset HE} (hV : V ∈ S.tri.vertexes) {s e e' : HE} (hs : s ∈ V) {σ τ τ' α : ℝ} {x y : Vec T}
    (h1 : TurnsTo S θ s σ α e τ) (h2 : InCorner f S θ e τ x) (h3 : TurnsTo S θ s σ α e' τ') (h4 : InCorner f S θ e' τ' y) : e = e' := by
  obtain ⟨hc, ha⟩ := around hf h hθ hV
  obtain ⟨-, n, rfl, k1⟩ := h1
  obtain ⟨-, m, rfl, k2⟩ := h3
  have hmono : ∀ {i j : ℕ}, i < j → arc S θ s (i + 1) ≤ arc S θ s j := by
    intro i j hij
    rcases Nat.lt_or_ge (i + 1) j with h4 | h4
    · exact (ha.arc_lt hs h4).le
    · rw [show i + 1 = j by omega]
  rcases lt_trichotomy n m with h5 | h5 | h5
  · have := hmono h5
    rw [arc_succ] at this
    linarith [h2.2.1, h4.1]
  · rw [h5]
  · have := hmono h5
    rw [arc_succ] at this
    linarith [h4.2.1, h2.1]

/-- When connections are known that sum up to a vertical vector, the vertical connection that is made from them has that vector. It starts
where one gets from the first of the connections when turning clockwise until one is in the direction of the vertical, and it ends where one
gets from the last of the connections when turning counterclockwise until one is in the opposite direction. No assertion fails. -/
theorem detected {f : T →+* ℝ} (hf : StrictMono f) (A : Option (Approx T K)) {debug : Bool} {S : FlatTri T} (h : Closed debug S)
    {θ : HE → ℝ} (hθ : AllCorners f S θ) (dbg : Bool) {v : Vec T} {l : List (Bool × Saddle)} {a b : Saddle}
    (ha : (walked l).head? = some a) (hb : (walked l).getLast? = some b) (hv : SameDirection v (holonomy S (walked l)))
    (has : a.source < S.tri.size) (hbt : b.target < S.tri.size) {σ ρ γ δ : ℝ} (hσ : InCorner f S θ a.source σ (S.saddleVector a))
    (hρ : InCorner f S θ b.target ρ (-S.saddleVector b)) (hγ : 0 < γ ∧ γ ≤ π) (hδ : 0 < δ ∧ δ ≤ π)
    (ht : Turns (v.map f) γ ((S.saddleVector a).map f)) (ht' : Turns ((-S.saddleVector b).map f) δ ((-v).map f)) :
    ∃ c, (∃ N, ∀ fuel ≥ N, detect A dbg fuel S v l = some (.ok c)) ∧ S.saddleVector c = holonomy S (walked l) ∧
      (c.source < S.tri.size ∧ c.target < S.tri.size) ∧ (∃ τ, InCorner f S θ c.source τ v ∧ TurnsTo S θ c.source τ γ a.source σ) ∧
      ∃ τ, InCorner f S θ c.target τ (-v) ∧ TurnsTo S θ b.target ρ δ c.target τ := by
  have hpi := pi_pos
  have hv0 : v ≠ 0 := by
    rintro rfl
    have := hv.2
    simp [dot] at this
  obtain ⟨V, hV, haV⟩ := exists_vertex h has
  obtain ⟨W, hW, hbW⟩ := exists_vertex h hbt
  obtain ⟨s, hsV, τ, N, hN, s1, s2⟩ := source_walk hf A h hθ dbg hV haV hv0 hσ hγ.1 hγ.2 ht
  obtain ⟨t, htW, τ', N', x, y, hN', t0, t1, t2⟩ := target_walk hf A h hθ dbg hW hbW hv0 hρ hδ.1 hδ.2 ht'
  set w := holonomy S (walked l) with hw
  have hw0 : w ≠ 0 := by
    intro h0
    have := hv.2
    rw [h0] at this
    simp [dot] at this
  have hvw : SameDirection (-v) (-w) := by
    refine ⟨?_, ?_⟩
    · have := hv.1
      rw [← this]; simp [cross]
    · have := hv.2
      simpa [dot] using this
  have c1 : S.inSector A s w = true :=
    (C75.inCorner_exists hf A h.reachable h.flat hV (fun e he => (nonboundary h hV e he).2) (around hf h hθ hV).1 hsV w).2
      ⟨hw0, τ, inCorner_same hf s1 hv⟩
  have c2 : S.inSector A t (-w) = true :=
    (C75.inCorner_exists hf A h.reachable h.flat hW (fun e he => (nonboundary h hW e he).2) (around hf h hθ hW).1 htW (-w)).2
      ⟨neg_ne_zero.2 hw0, τ', inCorner_same hf t1 hvw⟩
  have hvec : S.chainVector (total l) = w := vector_total S l
  have hnz : (List.range (S.tri.size / 2)).all (fun i => decide (total l i = 0)) = false := by
    by_contra hc
    rw [Bool.not_eq_false, List.all_eq_true] at hc
    refine hw0 ?_
    rw [← hvec, ← S.chainVector_zero]
    refine S.chainVector_congr fun i hi => ?_
    simpa using hc i (List.mem_range.2 hi)
  have hcol : Vec.ccw A v w = .collinear := by rw [ccw_eq, ccwExact_collinear]; exact hv.1
  have hori : Vec.orientation A v w = .same := (orientation_same A).2 hv.2
  obtain ⟨c, d, l1, l2, rfl, l4⟩ : ∃ c d, l.head? = some c ∧ l.getLast? = some d ∧ first c = a ∧ last d = b.neg := by
    unfold walked at ha hb
    rw [List.head?_map] at ha
    rw [List.getLast?_map] at hb
    obtain ⟨c, l1, l2⟩ := Option.map_eq_some_iff.1 ha
    obtain ⟨d, l3, l4⟩ := Option.map_eq_some_iff.1 hb
    refine ⟨c, d, l1, l3, l2, ?_⟩
    subst l4
    unfold last
    split
    · rfl
    · simp [Saddle.neg]
  have htw : Turns (w.map f) γ ((S.saddleVector (first c)).map f) := by
    have := (turns_same hf ht.symm hv).symm
    rwa [neg_neg] at this
  obtain ⟨⟨p1, p2⟩, p3, p4⟩ := signs hf hw0 htw
  have hanti : cross w (S.saddleVector (first c)) = -cross (S.saddleVector (first c)) w := by unfold cross; ring
  have hdot : dot w (S.saddleVector (first c)) = dot (S.saddleVector (first c)) w := by unfold dot; ring
  have hclock : Vec.ccw A (S.saddleVector (first c)) w = .clockwise ∨ Vec.ccw A (S.saddleVector (first c)) w = .collinear ∧
      Vec.orientation A (S.saddleVector (first c)) w = .opposite := by
    rcases hγ.2.lt_or_eq with g | g
    · left
      rw [ccw_eq, ccwExact_clockwise]
      have := p1.2 (sin_pos_of_pos_of_lt_pi hγ.1 g)
      linarith
    · right
      rw [g, sin_pi] at p1 p2
      rw [g, cos_pi] at p4
      refine ⟨?_, orientation_opposite' A ?_⟩
      · rw [ccw_eq, ccwExact_collinear]
        have q1 : ¬ 0 < cross w (S.saddleVector (first c)) := fun h => lt_irrefl _ (p1.1 h)
        have q2 : ¬ cross w (S.saddleVector (first c)) < 0 := fun h => lt_irrefl _ (p2.1 h)
        linarith
      · rw [← hdot]
        exact p4.2 (by norm_num)
  have hbs : (last d).source = b.target := by rw [l4]; rfl
  have hmake : Saddle.make dbg S.tri.size s t (total l) = .ok ⟨s, t, total l⟩ := by
    unfold Saddle.make
    rw [hnz, Bool.and_false, if_neg (by simp)]
  have hsv : S.saddleVector ⟨s, t, total l⟩ = w := hvec
  refine ⟨⟨s, t, total l⟩, ⟨max N N', fun fuel hfuel => ?_⟩, hsv, ⟨(nonboundary h hV s hsV).1, (nonboundary h hW t htW).1⟩, ⟨τ, s1, s2⟩, τ', t1, t2⟩
  have n1 := hN fuel (le_of_max_le_left hfuel)
  obtain ⟨n2, n3⟩ := hN' fuel (le_of_max_le_right hfuel)
  unfold detect
  dsimp only
  rw [hvec, l1, l2]
  dsimp only
  refine andThen_ok.2 ⟨(), C143.assert_of (by rw [hnz]; rfl), ?_⟩
  refine andThen_ok.2 ⟨(), C143.assert_of (by simpa using hcol), ?_⟩
  refine andThen_ok.2 ⟨(), C143.assert_of (by simpa using hori), ?_⟩
  refine andThen_ok.2 ⟨(), C143.assert_of ?_, ?_⟩
  · rcases hclock with g | ⟨g, -⟩ <;> simp [g]
  refine andThen_ok.2 ⟨s, ?_, ?_⟩
  · unfold FlowDetect.source
    exact andThen_ok.2 ⟨s, n1, andThen_ok.2 ⟨(), C143.assert_of c1, rfl⟩⟩
  refine andThen_ok.2 ⟨t, ?_, ?_⟩
  · unfold FlowDetect.target
    rw [hbs]
    refine andThen_ok.2 ⟨x, n2, andThen_ok.2 ⟨y, n3, ?_⟩⟩
    dsimp only
    rw [t0]
    exact andThen_ok.2 ⟨(), C143.assert_of c2, rfl⟩
  refine andThen_ok.2 ⟨⟨s, t, total l⟩, by rw [hmake], ?_⟩
  rw [hsv]
  refine andThen_ok.2 ⟨(), C143.assert_of (by simpa using hcol), ?_⟩
  refine andThen_ok.2 ⟨(), C143.assert_of (by simpa using hori), ?_⟩
  refine andThen_ok.2 ⟨(), C143.assert_of (by simp), ?_⟩
  exact andThen_ok.2 ⟨(), C143.assert_of (by simpa using hclock), rfl⟩

/-- If there is a saddle connection with the vector that starts and ends there, then this saddle connection is found. -/
theorem finds {f : T →+* ℝ} (hf : StrictMono f) (A : Option (Approx T K)) {debug : Bool} {S : FlatTri T} (h : Closed debug S)
    {θ : HE → ℝ} (hθ : AllCorners f S θ) (dbg : Bool) {v : Vec T} {l : List (Bool × Saddle)} {a b : Saddle}
    (ha : (walked l).head? = some a) (hb : (walked l).getLast? = some b) (hv : SameDirection v (holonomy S (walked l)))
    (has : a.source < S.tri.size ∧ IsSaddleConnection S a.source (S.saddleVector a) a.target)
    (hbt : b.source < S.tri.size ∧ IsSaddleConnection S b.source (S.saddleVector b) b.target) {σ ρ γ δ τ τ' : ℝ}
    (hσ : InCorner f S θ a.source σ (S.saddleVector a)) (hρ : InCorner f S θ b.target ρ (-S.saddleVector b)) (hγ : 0 < γ ∧ γ ≤ π)
    (hδ : 0 < δ ∧ δ ≤ π) {e t : HE} (he : e < S.tri.size) (hs : IsSaddleConnection S e (holonomy S (walked l)) t)
    (h1 : InCorner f S θ e τ v) (h2 : TurnsTo S θ e τ γ a.source σ) (h3 : InCorner f S θ t τ' (-v)) (h4 : TurnsTo S θ b.target ρ δ t τ') :
    ∃ c, (∃ N, ∀ fuel ≥ N, detect A dbg fuel S v l = some (.ok c)) ∧ c.source = e ∧ c.target = t ∧
      S.saddleVector c = holonomy S (walked l) ∧ IsSaddleConnection S c.source (S.saddleVector c) c.target := by
  have hpi := pi_pos
  have hbt' := C139.target_lt h hbt.1 hbt.2
  obtain ⟨V, hV, heV⟩ := exists_vertex h he
  obtain ⟨hc, hA⟩ := around hf h hθ hV
  obtain ⟨W, hW, hbW⟩ := exists_vertex h hbt'
  obtain ⟨hc', hA'⟩ := around hf h hθ hW
  have haV : a.source ∈ V := by
    obtain ⟨-, n, k, -⟩ := h2
    rw [← k]
    exact hA.iterate_mem heV n
  have ht := C143.turnsTo_turns hA heV h1 hσ h2
  have ht' := C143.turnsTo_turns hA' hbW hρ h3 h4
  obtain ⟨c, hN, k1, ⟨k0, -⟩, ⟨τ₁, k2, k3⟩, τ₂, k4, k5⟩ := detected hf A h hθ dbg ha hb hv has.1 hbt' hσ hρ hγ hδ ht ht'
  suffices key : c.source = e ∧ c.target = t from ⟨c, hN, key.1, key.2, k1, by rw [key.1, key.2, k1]; exact hs⟩
  refine ⟨?_, ?_⟩
  · obtain ⟨k, -, -, hk, hΘ⟩ := C20.angle_correct f hf h.reachable h.flat hV fun e he => (nonboundary h hV e he).2
    have hΘ := hΘ θ hc
    have hk' : (1 : ℝ) ≤ k := by exact_mod_cast hk
    have hlt : γ < ∑ x ∈ V, θ x := by rw [hΘ]; nlinarith
    have hcV : c.source ∈ V := by
      obtain ⟨V', hV', m1, m2⟩ := C143.together h k0 (k3.2.imp fun n hn => hn.1)
      have hF := IsFlat.flat h.reachable h.flat
      have := (C75.source_eq hF hV haV).symm.trans (C75.source_eq hF hV' m2)
      rw [Option.some.inj this]
      exact m1
    exact corner_of_turn hf h hθ hV haV (C143.turn_back hf h hθ hV hcV haV k2 hσ k3 hγ.1.ne' hlt) k2
      (C143.turn_back hf h hθ hV heV haV h1 hσ h2 hγ.1.ne' hlt) h1
  · exact corner_of_turn hf h hθ hW hbW k5 k4 h4 h3

/-- The hypotheses hold for a triangle of the L whose longest side is vertical, and that side is found. -/
example : ∃ θ, AllCorners (Int.castRingHom ℝ) flatEll θ ∧
    ∃ c, (∃ N, ∀ fuel ≥ N, detect (none : Option (Approx ℤ ℚ)) true fuel flatEll ⟨2, 2⟩
      [(true, .ofHalfEdge 6), (false, .ofHalfEdge 5)] = some (.ok c)) ∧ c.source = 12 ∧ c.target = 13 ∧ flatEll.saddleVector c = ⟨1, 1⟩ ∧
      IsSaddleConnection flatEll c.source (flatEll.saddleVector c) c.target := by
  obtain ⟨θ, hθ⟩ := C39.corners_exist (f := Int.castRingHom ℝ) Int.cast_strictMono flatEll_closed
  refine ⟨θ, hθ, ?_⟩
  obtain ⟨V, hV, h12⟩ := exists_vertex flatEll_closed (e := 12) (by decide)
  obtain ⟨W, hW, h5⟩ := exists_vertex flatEll_closed (e := 5) (by decide)
  obtain ⟨hc, hA⟩ := around Int.cast_strictMono flatEll_closed hθ hV
  obtain ⟨hc', hA'⟩ := around Int.cast_strictMono flatEll_closed hθ hW
  have hhol : holonomy flatEll (walked [(true, .ofHalfEdge 6), (false, .ofHalfEdge 5)]) = ⟨1, 1⟩ := by decide +kernel
  have h6 := hA.next_mem h12
  have h13 := hA'.next_mem h5
  have e6 : flatEll.tri.nextAtVertex 12 = 6 := by decide +kernel
  have e13 : flatEll.tri.nextAtVertex 5 = 13 := by decide +kernel
  rw [e6] at h6
  rw [e13] at h13
  have p12 := hA.pos h12
  have p6 := hA.pos h6
  have p5 := hA'.pos h5
  have p13 := hA'.pos h13
  have hin : ∀ {e : HE}, 0 < θ e → ∀ {x : Vec ℤ}, flatEll.vec e = x → InCorner (Int.castRingHom ℝ) flatEll θ e 0 x := by
    rintro e he x rfl
    exact ⟨le_rfl, he, turns_self _⟩
  have hup : Vec.SameDirection (⟨1, 1⟩ : Vec ℤ) ⟨2, 2⟩ := ⟨by decide, by decide⟩
  have hdown : Vec.SameDirection (⟨-1, -1⟩ : Vec ℤ) (-⟨2, 2⟩) := ⟨by decide, by decide⟩
  have hto : ∀ {e e' : HE}, 0 < θ e → flatEll.tri.nextAtVertex e = e' → TurnsTo flatEll θ e 0 (θ e) e' 0 := by
    rintro e e' he rfl
    exact ⟨he.le, 1, rfl, by rw [arc_one]; ring⟩
  have := finds (v := ⟨2, 2⟩) Int.cast_strictMono (none : Option (Approx ℤ ℚ)) flatEll_closed hθ true
    (l := [(true, .ofHalfEdge 6), (false, .ofHalfEdge 5)]) (a := .ofHalfEdge 6) (b := (Saddle.ofHalfEdge 5).neg) rfl rfl
    (by rw [hhol]; exact ⟨by decide, by decide⟩) ⟨by decide, .halfEdge (by decide +kernel) (by decide +kernel)⟩
    ⟨by decide, .halfEdge (by decide +kernel) (by decide +kernel)⟩ (σ := 0) (ρ := 0) (γ := θ 12) (δ := θ 5) (τ := 0) (τ' := 0) (e := 12)
    (t := 13) (hin p6.1 (by decide +kernel)) (hin p5.1 (by decide +kernel)) ⟨p12.1, p12.2.le⟩ ⟨p5.1, p5.2.le⟩ (by decide)
    (.halfEdge (by decide +kernel) (by decide +kernel)) (inCorner_same Int.cast_strictMono (hin p12.1 (by decide +kernel)) hup)
    (hto p12.1 e6) (inCorner_same Int.cast_strictMono (hin p13.1 (by decide +kernel)) hdown) (hto p5.1 e13)
  rwa [hhol] at this

end Verif.C145
