import Verif.Lemmas.CollapsedExamples
import Verif.Lemmas.RetriangulationTurn
import Verif.Lemmas.SaddleReverse
import Verif.Props.C124
import Verif.Props.C136
import Verif.Props.C52
import Verif.Props.C75
import Verif.Spec.Retriangulation

/-!
C139: the reverse of a saddle connection is a saddle connection.

C140: retriangulations preserve directions.

C141: retriangulations preserve straight segments.
-/

set_option linter.unusedSectionVars false

namespace Verif.C139

open Verif Spec Tri FlatTri Examples Vec Real SaddleConnections SaddleSearch

variable {T : Type} [CommRing T] [LinearOrder T] [IsStrictOrderedRing T]
variable {K : Type} [Field K] [LinearOrder K] [IsStrictOrderedRing K]

/-- Walking along a saddle connection in the other direction, one comes from the corner in which it ends to the corner in which it
starts, without meeting any vertex in between. -/
theorem reverse {dbg : Bool} {S : FlatTri T} (h : Closed dbg S) {e : HE} (he : e < S.tri.size) {v : Vec T} {t : HE}
    (hs : IsSaddleConnection S e v t) : IsSaddleConnection S t (-v) e := h.shut.reverse he hs

theorem target_lt {dbg : Bool} {S : FlatTri T} (h : Closed dbg S) {e : HE} (he : e < S.tri.size) {v : Vec T} {t : HE}
    (hs : IsSaddleConnection S e v t) : t < S.tri.size := by
  have key : ∀ {x : HE} {q : Vec T} {t : HE}, Hits S v x q t → x < S.tri.size → t < S.tri.size := by
    intro x q t hit
    induction hit with
    | here _ => exact fun hx => h.shut.next_lt (h.shut.next_lt (h.shut.neg_lt hx))
    | right _ _ ih => exact fun hx => ih (h.shut.next_lt (h.shut.neg_lt hx))
    | left _ _ ih => exact fun hx => ih (h.shut.next_lt (h.shut.next_lt (h.shut.neg_lt hx)))
  rcases hs with ⟨-, rfl⟩ | ⟨-, -, hit⟩
  · exact h.shut.neg_lt he
  · exact key hit (h.shut.next_lt he)

/-- The saddle connections of at most some length that are reported contain with each saddle connection its reverse. -/
theorem search_reverse {f : T →+* ℝ} (hf : StrictMono f) (A : Option (Approx T K)) {dbg : Bool} {S : FlatTri T} (h : Closed dbg S)
    (b : Bound) :
    ∃ N, ∀ fuel ≥ N, ∃ st, run A false S fuel (make S) [.bound b] = some (.ok st) ∧
      ∀ debug, ∃ L M, (∀ fuel ≥ M, enumerate A debug S st fuel = some (.ok L)) ∧
        ∀ c ∈ L, ∃ d ∈ L, d.source = c.target ∧ d.target = c.source ∧ S.saddleVector d = -S.saddleVector c := by
  obtain ⟨θ, hθ⟩ := C39.corners_exist hf h
  obtain ⟨N, hN⟩ := C40.search_exact hf A h hθ (fs := [.bound b]) (by simp [ValidRestriction]) ⟨b, by simp⟩
  refine ⟨N, fun fuel hfuel => ?_⟩
  obtain ⟨st, e1, e2⟩ := hN fuel hfuel
  refine ⟨st, e1, fun debug => ?_⟩
  obtain ⟨L, M, e3, e4, -, e5⟩ := e2 debug
  refine ⟨L, M, e3, fun c hc => ?_⟩
  obtain ⟨k1, -, k2⟩ := (e5 c.source (S.saddleVector c)).1 ⟨c, hc, rfl, rfl⟩
  have hr := reverse h k1 (e4 c hc)
  have ht := target_lt h k1 (e4 c hc)
  have hb : dot (S.saddleVector c) (S.saddleVector c) ≤ (b.square : T) := k2 (.bound b) (by simp)
  obtain ⟨d, d1, d2, d3⟩ := (e5 c.target (-S.saddleVector c)).2 ⟨ht, ⟨_, hr⟩, fun g hg => by
    obtain rfl : g = .bound b := by simpa using hg
    show dot (-S.saddleVector c) (-S.saddleVector c) ≤ (b.square : T)
    have : dot (-S.saddleVector c) (-S.saddleVector c) = dot (S.saddleVector c) (S.saddleVector c) := by
      unfold dot
      simp only [Vec.neg_x, Vec.neg_y]
      ring
    rwa [this]⟩
  refine ⟨d, d1, d2, ?_, d3⟩
  have hd := e4 d d1
  rw [d2, d3] at hd
  have hp := ByLength.saddle_pos h.shut hf hθ hr ht
  exact (C40.direction_unique hd hr (cross_self _) hp).2

/-- The hypotheses are met by a saddle connection that crosses three edges of the torus. -/
example : Closed true flatTorus ∧ ∃ e v t, e < flatTorus.tri.size ∧ IsSaddleConnection flatTorus e v t ∧ v = ⟨3, 2⟩ :=
  ⟨C30.flatTorus_closed, _, _, _, by decide, C124.slope_connection, by decide +kernel⟩

end Verif.C139

namespace Verif.C140

open Verif Spec Tri FlatTri Examples Vec Real Function

variable {T : Type} [CommRing T] [LinearOrder T] [IsStrictOrderedRing T]
variable {K : Type} [Field K] [LinearOrder K] [IsStrictOrderedRing K]

theorem turns_same {f : T →+* ℝ} (hf : StrictMono f) {u v w : Vec T} {α : ℝ} (h : Turns (u.map f) α (v.map f))
    (hs : SameDirection v w) : Turns (u.map f) α (w.map f) := by
  have hv : v ≠ 0 := by
    rintro rfl
    have := hs.2
    simp [dot] at this
  have h0 := dot_self_pos hv
  have k : Turns (v.map f) 0 (w.map f) := by
    have e0 : (0 : ℝ) < f (dot v v) := by rw [← map_zero f]; exact hf h0
    have e1 : (0 : ℝ) < f (dot v w) := by rw [← map_zero f]; exact hf hs.2
    refine ⟨f (dot v w) / f (dot v v), div_pos e1 e0, ?_⟩
    rw [rotate_zero]
    have hx : dot v v * w.x = dot v w * v.x := by
      have : v.x * w.y - v.y * w.x = 0 := hs.1
      unfold dot
      linear_combination -v.y * this
    have hy : dot v v * w.y = dot v w * v.y := by
      have : v.x * w.y - v.y * w.x = 0 := hs.1
      unfold dot
      linear_combination v.x * this
    have hx' := congrArg f hx
    have hy' := congrArg f hy
    rw [map_mul, map_mul] at hx' hy'
    ext
    · rw [smul_x]
      show f w.x = f (dot v w) / f (dot v v) * f v.x
      field_simp
      linarith
    · rw [smul_y]
      show f w.y = f (dot v w) / f (dot v v) * f v.y
      field_simp
      linarith
  have := h.trans k
  rwa [add_zero] at this

theorem inCorner_same {f : T →+* ℝ} (hf : StrictMono f) {S : FlatTri T} {θ : HE → ℝ} {e : HE} {σ : ℝ} {v w : Vec T}
    (h : InCorner f S θ e σ v) (hs : SameDirection v w) : InCorner f S θ e σ w := ⟨h.1, h.2.1, turns_same hf h.2.2 hs⟩

theorem nonboundary {dbg : Bool} {S : FlatTri T} (h : Closed dbg S) {V : Finset HE} (hV : V ∈ S.tri.vertexes) :
    ∀ e ∈ V, e < S.tri.size ∧ S.tri.boundary e = false := by
  have hF := IsFlat.flat h.reachable h.flat
  obtain ⟨x, hx, hx'⟩ := hF.ver.orbit V hV
  intro e he
  have hlt : e < S.tri.size := ((hx' e).1 he).lt hF.coh.hv hx
  exact ⟨hlt, boundary_false.2 (hasBoundary_false.1 h.closed e hlt)⟩

theorem around {f : T →+* ℝ} (hf : StrictMono f) {dbg : Bool} {S : FlatTri T} (h : Closed dbg S) {θ : HE → ℝ} (hθ : AllCorners f S θ)
    {V : Finset HE} (hV : V ∈ S.tri.vertexes) : Corners f S V θ ∧ Around f S V θ := by
  have hb := nonboundary h hV
  have hc : Corners f S V θ := fun e he => hθ e (Finset.mem_range.2 (hb e he).1)
  exact ⟨hc, C21.around hf h.reachable h.flat hV (fun e he => (hb e he).2) hc⟩

/-- `turn(surface, source, direction, angle)` turns `angle` times around: when the direction is in the corner at the half edge, then the
direction is in the corner at the result, which one gets to by turning counterclockwise by a multiple of 2π. -/
theorem full_turns {f : T →+* ℝ} (hf : StrictMono f) (A : Option (Approx T K)) {dbg : Bool} {S : FlatTri T} (h : Closed dbg S)
    {θ : HE → ℝ} (hθ : AllCorners f S θ) {V : Finset HE} (hV : V ∈ S.tri.vertexes) {e : HE} (he : e ∈ V) {v : Vec T} {σ : ℝ}
    (hv : InCorner f S θ e σ v) (angle : ℕ) :
    ∃ e' ∈ V, ∃ σ' N, (∀ fuel ≥ N, S.turnFully A fuel v angle e = some e') ∧ InCorner f S θ e' σ' v ∧
      TurnsTo S θ e σ (angle * (2 * π)) e' σ' :=
  (around hf h hθ hV).2.turnFully A angle he hv

/-- `turn(surface, source, from, to)` turns counterclockwise from one direction to the other, by less than 2π. -/
theorem turn_correct {f : T →+* ℝ} (hf : StrictMono f) (A : Option (Approx T K)) {dbg : Bool} {S : FlatTri T} (h : Closed dbg S)
    {θ : HE → ℝ} (hθ : AllCorners f S θ) {V : Finset HE} (hV : V ∈ S.tri.vertexes) {e : HE} (he : e ∈ V) {u v : Vec T} {σ α : ℝ}
    (hu : InCorner f S θ e σ u) (hα : FirstTurn (u.map f) .counterclockwise (v.map f) false α) :
    ∃ e' ∈ V, ∃ τ N, (∀ fuel ≥ N, S.turnFrom A v fuel e u = some e') ∧ InCorner f S θ e' τ v ∧ TurnsTo S θ e σ α e' τ :=
  (around hf h hθ hV).2.turnFrom A he hu hα.2.1 hα.2.2 hα.1

theorem sameAngle {f : T →+* ℝ} (hf : StrictMono f) {dbg : Bool} {R : GenericRetriangulation T} (h : Closed dbg R.domain)
    (h' : Closed dbg R.codomain) {θ θ' : HE → ℝ} (hθ : AllCorners f R.domain θ) (hθ' : AllCorners f R.codomain θ') {V V' : Finset HE}
    (hV : V ∈ R.domain.tri.vertexes) (hV' : V' ∈ R.codomain.tri.vertexes) (ht : ∑ x ∈ V, θ x = ∑ x ∈ V', θ' x) {e e' : HE} (he : e ∈ V)
    (he' : e' ∈ V') : ∃ N, ∀ fuel ≥ N, R.sameAngle fuel e e' = some (.ok true) := by
  have hb := nonboundary h hV
  have hb' := nonboundary h' hV'
  obtain ⟨k, N, a1, -, a2⟩ := C20.angle_correct f hf h.reachable h.flat hV fun e he => (hb e he).2
  obtain ⟨k', N', b1, -, b2⟩ := C20.angle_correct f hf h'.reachable h'.flat hV' fun e he => (hb' e he).2
  have hk : k = k' := by
    rw [a2 θ (around hf h hθ hV).1, b2 θ' (around hf h' hθ' hV').1] at ht
    have h2 : (2 * π) ≠ 0 := by positivity
    exact_mod_cast mul_right_cancel₀ h2 ht
  refine ⟨max N N', fun fuel hfuel => ?_⟩
  unfold GenericRetriangulation.sameAngle
  rw [C75.source_eq (IsFlat.flat h.reachable h.flat) hV he, C75.source_eq (IsFlat.flat h'.reachable h'.flat) hV' he']
  simp only
  rw [a1 fuel ((le_max_left _ _).trans hfuel), b1 fuel ((le_max_right _ _).trans hfuel)]
  simp [hk]

/-- A direction at a vertex of the domain is mapped to the direction given by the same vector at the corresponding vertex of the codomain,
such that the angle to the direction of the relation is the same. -/
theorem source_correct {f : T →+* ℝ} (hf : StrictMono f) (A : Option (Approx T K)) {dbg : Bool} {R : GenericRetriangulation T}
    (h : Closed dbg R.domain) (h' : Closed dbg R.codomain) {θ θ' : HE → ℝ} (hθ : AllCorners f R.domain θ)
    (hθ' : AllCorners f R.codomain θ') {V V' : Finset HE} {c c' : Saddle} {σ σ' : ℝ} (hr : Corresponds f R θ θ' V V' c c' σ σ')
    {e : HE} (he : e ∈ V) {v : Vec T} {τ α : ℝ} (hv : InCorner f R.domain θ e τ v) (ht : TurnsTo R.domain θ c.source σ α e τ)
    (hα : α < ∑ x ∈ V, θ x) :
    ∃ e' ∈ V', ∃ τ' N, (∀ fuel ≥ N, R.source A dbg fuel e v = some (.ok (some e'))) ∧ InCorner f R.codomain θ' e' τ' v ∧
      TurnsTo R.codomain θ' c'.source σ' α e' τ' := by
  have hpi := pi_pos
  have hb := nonboundary h hr.vertex
  obtain ⟨hcor, ha⟩ := around hf h hθ hr.vertex
  obtain ⟨hcor', ha'⟩ := around hf h' hθ' hr.vertex'
  obtain ⟨N1, k, a1, a2⟩ := C75.angle_correct hf A h.reachable h.flat hr.vertex (fun e he => (hb e he).2) hcor hr.source he hr.corner hv ht hα
  obtain ⟨N2, a3⟩ := sameAngle hf h h' hθ hθ' hr.vertex hr.vertex' hr.total he hr.source'
  obtain ⟨e1, he1, σ1, N3, b1, b2, b3⟩ := full_turns hf A h' hθ' hr.vertex' hr.source' hr.corner' k
  have hk := Int.floor_eq_iff.1 a2.symm
  have k1 : (k : ℝ) * (2 * π) ≤ α := by
    have := (le_div_iff₀ (by positivity)).1 hk.1
    exact_mod_cast this
  have k2 : α < ((k : ℝ) + 1) * (2 * π) := by
    have := (div_lt_iff₀ (by positivity)).1 hk.2
    exact_mod_cast this
  -- the turn in the domain
  have t1 : Turns ((R.domain.saddleVector c).map f) α (v.map f) := by
    obtain ⟨-, n, rfl, hn⟩ := ht
    have := (ha.turns_vec hr.source hr.corner n).trans hv.2.2
    rwa [show arc R.domain θ c.source n - σ + τ = α by linarith] at this
  have t2 : Turns ((R.codomain.saddleVector c').map f) α (v.map f) := by
    have s : SameDirection (R.codomain.saddleVector c') (R.domain.saddleVector c) := by
      obtain ⟨s1, s2⟩ := hr.direction
      exact ⟨by rw [cross_comm, s1, neg_zero], by rw [dot_comm]; exact s2⟩
    have := (turns_same hf (turns_self _) s).trans t1
    rwa [zero_add] at this
  have t3 : ∀ n : ℕ, Turns ((R.codomain.saddleVector c').map f) (α - n * (2 * π)) (v.map f) := by
    intro n
    induction n with
    | zero => simpa using t2
    | succ n ih =>
      rw [← Turns.period]
      have : α - ((n + 1 : ℕ) : ℝ) * (2 * π) + 2 * π = α - n * (2 * π) := by push_cast; ring
      rwa [this]
  obtain ⟨e2, he2, τ', N4, d1, d2, d3⟩ := ha'.turnFrom A he1 b2 (by linarith) (by linarith) (t3 k)
  refine ⟨e2, he2, τ', max (max N1 N2) (max N3 N4), fun fuel hfuel => ?_, d2, ?_⟩
  · have f1 : N1 ≤ fuel := le_trans (le_trans (le_max_left _ _) (le_max_left _ _)) hfuel
    have f2 : N2 ≤ fuel := le_trans (le_trans (le_max_right _ _) (le_max_left _ _)) hfuel
    have f3 : N3 ≤ fuel := le_trans (le_trans (le_max_left _ _) (le_max_right _ _)) hfuel
    have f4 : N4 ≤ fuel := le_trans (le_trans (le_max_right _ _) (le_max_right _ _)) hfuel
    unfold GenericRetriangulation.source
    rw [C75.source_eq (IsFlat.flat h.reachable h.flat) hr.vertex he]
    simp only
    rw [hr.relation]
    simp only
    rw [a1 fuel f1]
    simp only
    have : (if dbg = true then R.sameAngle fuel e c'.source else some (.ok true)) = some (.ok true) := by
      cases dbg
      · rfl
      · exact a3 fuel f2
    rw [this]
    simp only
    unfold GenericRetriangulation.turned
    simp only [bind, Option.bind]
    rw [b1 fuel f3]
    simp only
    rw [d1 fuel f4]
    rfl
  · have := TurnsTo.trans b3 d3
    rwa [show (k : ℝ) * (2 * π) + (α - k * (2 * π)) = α by ring] at this

/-- The L-shaped surface whose vertex has a total angle of 6π, such that a half edge corresponds to the half edge with the same vector
that follows after a turn of 4π. -/
def turnedEll : GenericRetriangulation ℤ := ⟨flatEll, flatEll, fun _ => some (.ofHalfEdge 0, .ofHalfEdge 2)⟩

theorem turnedEll_corresponds {f : ℤ →+* ℝ} (hf : StrictMono f) {θ : HE → ℝ} (hθ : AllCorners f flatEll θ) :
    Corresponds f turnedEll θ θ (Finset.range 18) (Finset.range 18) (.ofHalfEdge 0) (.ofHalfEdge 2) 0 0 := by
  have ha := (around hf flatEll_closed hθ C21.ell_vertex.1).2
  have e0 : flatEll.saddleVector (.ofHalfEdge 0) = flatEll.vec 0 := by decide +kernel
  have e2 : flatEll.saddleVector (.ofHalfEdge 2) = flatEll.vec 2 := by decide +kernel
  exact ⟨C21.ell_vertex.1, C21.ell_vertex.1, rfl, rfl, by decide, by decide,
    ⟨le_rfl, (ha.pos (by decide)).1, by
      show Turns _ _ ((flatEll.saddleVector (.ofHalfEdge 0)).map f)
      rw [e0]
      exact turns_self _⟩,
    ⟨le_rfl, (ha.pos (by decide)).1, by
      show Turns _ _ ((flatEll.saddleVector (.ofHalfEdge 2)).map f)
      rw [e2]
      exact turns_self _⟩, by
      show SameDirection (flatEll.saddleVector (.ofHalfEdge 0)) (flatEll.saddleVector (.ofHalfEdge 2))
      rw [e0, e2]
      exact ⟨by decide, by decide⟩⟩

theorem turnedEll_direction {f : ℤ →+* ℝ} (hf : StrictMono f) {θ : HE → ℝ} (hθ : AllCorners f flatEll θ) {e : HE} (he : e ∈ Finset.range 18)
    {v : Vec ℤ} (hv : flatEll.inSector (none : Option (Approx ℤ ℚ)) e v = true) :
    ∃ τ α, InCorner f flatEll θ e τ v ∧ TurnsTo flatEll θ 0 0 α e τ ∧ α < ∑ x ∈ Finset.range 18, θ x := by
  obtain ⟨hc, -⟩ := around hf flatEll_closed hθ C21.ell_vertex.1
  obtain ⟨-, τ, hτ⟩ := (C75.inCorner_exists hf (none : Option (Approx ℤ ℚ)) (ell_reachable true) flatEll_isFlat C21.ell_vertex.1
    C21.ell_vertex.2 hc he v).1 hv
  obtain ⟨α, hα, -⟩ := C75.turnsTo_existsUnique hf (ell_reachable true) flatEll_isFlat C21.ell_vertex.1 C21.ell_vertex.2 hc (by decide) he
    (turnedEll_corresponds hf hθ).corner hτ
  exact ⟨τ, α, hτ, hα⟩

/-- The hypotheses of `source_correct` are met by this surface and a direction. -/
example : ∃ (θ : HE → ℝ) (τ α : ℝ), AllCorners (Int.castRingHom ℝ) flatEll θ ∧ Closed true flatEll ∧
    Corresponds (Int.castRingHom ℝ) turnedEll θ θ (Finset.range 18) (Finset.range 18) (.ofHalfEdge 0) (.ofHalfEdge 2) 0 0 ∧
    InCorner (Int.castRingHom ℝ) flatEll θ 4 τ ⟨2, 1⟩ ∧ TurnsTo flatEll θ 0 0 α 4 τ ∧ α < ∑ x ∈ Finset.range 18, θ x := by
  obtain ⟨θ, hθ⟩ := C39.corners_exist (f := Int.castRingHom ℝ) Int.cast_strictMono flatEll_closed
  obtain ⟨τ, α, h⟩ := turnedEll_direction Int.cast_strictMono hθ (e := 4) (by decide) (v := ⟨2, 1⟩) (by decide +kernel)
  exact ⟨θ, τ, α, hθ, flatEll_closed, turnedEll_corresponds Int.cast_strictMono hθ, h⟩

/-- The code maps a direction at half edge 4 to the direction at half edge 0. -/
example : (turnedEll.source (none : Option (Approx ℤ ℚ)) true 100 4 ⟨2, 1⟩).map Except.toOption = some (some (some 0)) := by
  decide +kernel

end Verif.C140

namespace Verif.C141

open Verif Spec Tri FlatTri Examples Vec Real Function C140 GenericRetriangulation

variable {T : Type} [CommRing T] [LinearOrder T] [IsStrictOrderedRing T]
variable {K : Type} [Field K] [LinearOrder K] [IsStrictOrderedRing K]

theorem exists_vertex {dbg : Bool} {S : FlatTri T} (h : Closed dbg S) {e : HE} (he : e < S.tri.size) : ∃ V ∈ S.tri.vertexes, e ∈ V := by
  obtain ⟨V, hs, ho⟩ := h.shut.source he
  exact ⟨V, List.mem_of_find?_eq_some hs, (ho e).2 (Perm.Orb.refl _ e)⟩

/-- The sector in which one gets to a direction. -/
theorem sectorFrom_eq {f : T →+* ℝ} (hf : StrictMono f) (A : Option (Approx T K)) {dbg : Bool} {S : FlatTri T} (h : Closed dbg S)
    {θ : HE → ℝ} (hθ : AllCorners f S θ) {e : HE} (he : e < S.tri.size) {k : ℕ} {v : Vec T} {τ : ℝ}
    (hv : InCorner f S θ (S.tri.nextAtVertex^[k] e) τ v) (hlt : arc S θ e k + τ < 2 * π) :
    ∃ N, ∀ fuel ≥ N, S.sectorFrom A fuel e (S.vec e) .counterclockwise v false = some (.ok (S.tri.nextAtVertex^[k] e)) := by
  obtain ⟨V, hV, heV⟩ := exists_vertex h he
  obtain ⟨hc, ha⟩ := around hf h hθ hV
  have hb : ∀ e ∈ V, S.tri.boundary e = false := fun e he => (nonboundary h hV e he).2
  have hk := ha.iterate_mem heV k
  have hv0 : v ≠ 0 := ((C75.inCorner_exists hf A h.reachable h.flat hV hb hc hk v).1
    ((C75.inCorner_exists hf A h.reachable h.flat hV hb hc hk v).2 ⟨fun hz => by
      subst hz
      exact ha.corner_ne hk hv (by ext <;> simp [Vec.map]), τ, hv⟩)).1
  have he0 : InCorner f S θ e 0 (S.vec e) := ⟨le_rfl, (ha.pos heV).1, turns_self _⟩
  have hin : S.inSector A e (S.vec e) = true := (C75.inCorner_exists hf A h.reachable h.flat hV hb hc heV _).2
    ⟨fun hz => ha.vec_ne heV (by rw [hz]; ext <;> simp [Vec.map]), 0, he0⟩
  obtain ⟨e', N, h1, -, h2⟩ := C21.sectorFrom_counterclockwise hf A h.reachable h.flat hV hb hc heV hin hv0 false
  have h0 : 0 ≤ arc S θ e k := by
    have := ha.arc_mono heV (Nat.zero_le k)
    rwa [arc_zero] at this
  have hturn : Turns ((S.vec e).map f) (arc S θ e k + τ) (v.map f) := (turn_iterate ha heV k).trans hv.2.2
  have h3 := h2 0 le_rfl (by positivity) (turns_self _) (arc S θ e k + τ) ⟨hturn, by linarith [hv.1], hlt⟩
  have h4 : TurnedInto S θ e (0 + (arc S θ e k + τ)) (S.tri.nextAtVertex^[k] e) := by
    refine ⟨e, 0, k, rfl, rfl, ?_, ?_⟩
    · rw [arc_zero]
      linarith [hv.1]
    · rw [arc_zero, arc_succ]
      linarith [hv.2.1]
  rw [C21.turnedInto_unique hf h.reachable h.flat hV hb hc heV h3 h4] at h1
  exact ⟨N, h1⟩

/-- Where a segment continues after a saddle connection. -/
theorem continue_eq {f : T →+* ℝ} (hf : StrictMono f) (A : Option (Approx T K)) {dbg : Bool} {S : FlatTri T} (h : Closed dbg S)
    {θ : HE → ℝ} (hθ : AllCorners f S θ) {t : HE} (ht : t < S.tri.size) {u v : Vec T} {σ τ : ℝ} (hu : InCorner f S θ t σ u) {e : HE}
    (hv : InCorner f S θ e τ v) (hπ : TurnsTo S θ t σ π e τ) :
    ∃ N, ∀ fuel ≥ N, S.sectorFrom A fuel (S.tri.nextAtVertex t) (S.vec (S.tri.nextAtVertex t)) .counterclockwise v false = some (.ok e) := by
  have hpi := pi_pos
  obtain ⟨V, hV, heV⟩ := exists_vertex h ht
  obtain ⟨hc, ha⟩ := around hf h hθ hV
  obtain ⟨-, n, rfl, hn⟩ := hπ
  have p := ha.pos heV
  have hn0 : n ≠ 0 := by
    rintro rfl
    rw [arc_zero] at hn
    rw [iterate_zero_apply] at hv
    linarith [hu.1, hv.2.1]
  obtain ⟨k, rfl⟩ := Nat.exists_eq_succ_of_ne_zero hn0
  have hnext := (nonboundary h hV _ (ha.next_mem heV)).1
  rw [Nat.succ_eq_add_one, add_comm k 1, arc_add, arc_one, iterate_one] at hn
  rw [iterate_succ_apply] at hv ⊢
  exact sectorFrom_eq hf A h hθ hnext hv (by linarith [hu.2.1])

/-- A segment can always be continued. -/
theorem exists_continue {f : T →+* ℝ} (hf : StrictMono f) {dbg : Bool} {S : FlatTri T} (h : Closed dbg S)
    {θ : HE → ℝ} (hθ : AllCorners f S θ) {t : HE} (ht : t < S.tri.size) {u : Vec T} {σ : ℝ} (hu : InCorner f S θ t σ (-u)) :
    ∃ e < S.tri.size, ∃ τ, InCorner f S θ e τ u ∧ TurnsTo S θ t σ π e τ := by
  have hpi := pi_pos
  obtain ⟨V, hV, heV⟩ := exists_vertex h ht
  obtain ⟨hc, ha⟩ := around hf h hθ hV
  obtain ⟨m, m1, m2⟩ := ha.crossing heV (B := σ + π) (by linarith [hu.1])
  refine ⟨_, (nonboundary h hV _ (ha.iterate_mem heV m)).1, σ + π - arc S θ t m, ⟨by linarith, ?_, ?_⟩, hpi.le, m, rfl, by ring⟩
  · rw [arc_succ] at m2
    linarith
  · have h1 := (ha.turns_vec heV hu m).symm
    have h2 : Turns ((-u).map f) π (u.map f) := by
      refine ⟨1, one_pos, ?_⟩
      ext <;> simp [rotate, Vec.map]
    have := h1.trans h2
    rwa [show -(arc S θ t m - σ) + π = σ + π - arc S θ t m by ring] at this

theorem corner_unique {f : T →+* ℝ} (hf : StrictMono f) {dbg : Bool} {S : FlatTri T} (h : Closed dbg S)
    {θ : HE → ℝ} (hθ : AllCorners f S θ) {e : HE} (he : e < S.tri.size) {v : Vec T} {σ τ : ℝ} (h1 : InCorner f S θ e σ v)
    (h2 : InCorner f S θ e τ v) : σ = τ := by
  obtain ⟨V, hV, heV⟩ := exists_vertex h he
  obtain ⟨hc, ha⟩ := around hf h hθ hV
  have := ha.pos heV
  exact Turns.unique (ha.vec_ne heV) ⟨h1.1, by linarith [h1.2.1, pi_pos]⟩ ⟨h2.1, by linarith [h2.2.1, pi_pos]⟩ h1.2.2 h2.2.2

theorem dot_add_right (u v w : Vec T) : dot u (v + w) = dot u v + dot u w := by
  unfold dot
  simp only [Vec.add_x, Vec.add_y]
  ring

theorem dot_sum_pos (v : Vec T) : ∀ (l : List (Vec T)), l ≠ [] → (∀ w ∈ l, 0 < dot v w) → 0 < dot v l.sum
  | [], h, _ => absurd rfl h
  | [w], _, h => by simpa using h w (by simp)
  | w :: w' :: l, _, h => by
    rw [List.sum_cons, dot_add_right]
    exact add_pos (h w (by simp)) (dot_sum_pos v (w' :: l) (by simp) fun x hx => h x (List.mem_cons_of_mem _ hx))

/-- Parts of a segment are not longer than the segment. -/
theorem part_le {v w r : Vec T} (hv : v ≠ 0) (hw : SameDirection v w) (hr : 0 ≤ dot v r) (hc : cross v r = 0) (h : v = w + r) :
    dot w w ≤ dot v v := by
  have h0 := dot_self_pos hv
  -- `w` and `r` are non-negative multiples of `v`
  have e1 : dot v v * dot w r = dot v w * dot v r + cross v w * cross v r := by
    unfold dot cross
    ring
  rw [hc, mul_zero, add_zero] at e1
  have e2 : 0 ≤ dot w r := by
    have : 0 ≤ dot v v * dot w r := by rw [e1]; exact mul_nonneg hw.2.le hr
    exact nonneg_of_mul_nonneg_right this h0
  have e3 : dot v v = dot w w + 2 * dot w r + dot r r := by
    rw [h]
    unfold dot
    simp only [Vec.add_x, Vec.add_y]
    ring
  have e4 : 0 ≤ dot r r := by
    unfold dot
    nlinarith [mul_self_nonneg r.x, mul_self_nonneg r.y]
  linarith

theorem uniform {n : ℕ} {P : ℕ → ℕ → Prop} (h : ∀ e < n, ∃ N, ∀ m ≥ N, P e m) : ∃ N, ∀ e < n, ∀ m ≥ N, P e m := by
  induction n with
  | zero => exact ⟨0, fun e he => absurd he (by omega)⟩
  | succ n ih =>
    obtain ⟨N, hN⟩ := ih fun e he => h e (by omega)
    obtain ⟨M, hM⟩ := h n (by omega)
    refine ⟨max N M, fun e he m hm => ?_⟩
    rcases (Nat.lt_succ_iff_lt_or_eq.1 he) with h1 | rfl
    · exact hN e h1 m ((le_max_left _ _).trans hm)
    · exact hM m ((le_max_right _ _).trans hm)

theorem sectorFrom_total {f : T →+* ℝ} (hf : StrictMono f) (A : Option (Approx T K)) {dbg : Bool} {S : FlatTri T} (h : Closed dbg S)
    {θ : HE → ℝ} (hθ : AllCorners f S θ) {e : HE} (he : e < S.tri.size) {v : Vec T} (hv : v ≠ 0) :
    ∃ N, ∀ n ≥ N, ∃ b < S.tri.size, ∀ m ≥ N, S.sectorFrom A m e (S.vec e) .counterclockwise v false = some (.ok b) := by
  obtain ⟨V, hV, heV⟩ := exists_vertex h he
  obtain ⟨hc, ha⟩ := around hf h hθ hV
  obtain ⟨ρ, d⟩ := ha.exists_dir hv
  obtain ⟨d0, d1, d2⟩ := d e heV
  obtain ⟨k, k1, k2⟩ := ha.crossing heV d0
  have hk : InCorner f S θ (S.tri.nextAtVertex^[k] e) (ρ e - arc S θ e k) v := by
    rw [arc_succ] at k2
    refine ⟨by linarith, by linarith, ?_⟩
    have := (turn_iterate ha heV k).symm.trans d2
    rwa [show -arc S θ e k + ρ e = ρ e - arc S θ e k by ring] at this
  obtain ⟨N, hN⟩ := sectorFrom_eq hf A h hθ he hk (by linarith)
  exact ⟨N, fun n _ => ⟨_, (nonboundary h hV _ (ha.iterate_mem heV k)).1, hN⟩⟩

/-- The loop only returns straight segments. -/
theorem segments_sound {f : T →+* ℝ} (hf : StrictMono f) (A : Option (Approx T K)) {dbg : Bool} {R : GenericRetriangulation T}
    (h : Closed dbg R.codomain) {θ : HE → ℝ} (hθ : AllCorners f R.codomain θ) {upper : Vec T → Bound}
    (hup : ∀ v, dot v v ≤ ((upper v).square : T)) {v : Vec T} (hv : v ≠ 0) :
    ∃ N, ∀ n ≥ N, ∀ fuel source_ acc l, source_ < R.codomain.tri.size → segments A R dbg upper n v fuel source_ acc = some (.ok l) →
      (∀ c ∈ l, c.source < R.codomain.tri.size ∧ IsSaddleConnection R.codomain c.source (R.codomain.saddleVector c) c.target) ∧
      (∀ c ∈ l, SameDirection v (R.codomain.saddleVector c)) ∧ l.IsChain (Continues f R.codomain θ) ∧
      acc + (l.map R.codomain.saddleVector).sum = v ∧
      ∃ c, l.head? = some c ∧
        R.codomain.sectorFrom A n source_ (R.codomain.vec source_) .counterclockwise v false = some (.ok c.source) := by
  set S := R.codomain with hS
  obtain ⟨N1, hN1⟩ := uniform (n := S.tri.size) (P := fun e n => ∃ r, Saddle.inSector A dbg upper n S e v = some r ∧
      ∀ c, r = .ok c → c.source = e ∧ IsSaddleConnection S e (S.saddleVector c) c.target ∧ SameDirection v (S.saddleVector c)) fun e he => by
    obtain ⟨N, hN⟩ := C136.inSector_correct hf A h he hup v
    refine ⟨N, fun m hm => ?_⟩
    obtain ⟨r, r1, r2, -⟩ := hN m hm
    exact ⟨r, r1, fun c hc => ⟨(r2 c hc).1, (r2 c hc).2.1, (r2 c hc).2.2.1⟩⟩
  obtain ⟨N2, hN2⟩ := uniform (n := S.tri.size) (P := fun e n => ∃ b < S.tri.size, ∀ m ≥ n,
      S.sectorFrom A m e (S.vec e) .counterclockwise v false = some (.ok b)) fun e he => by
    obtain ⟨N, hN⟩ := sectorFrom_total hf A h hθ he hv
    refine ⟨N, fun m hm => ?_⟩
    obtain ⟨b, b1, b2⟩ := hN m hm
    exact ⟨b, b1, fun k hk => b2 k (hm.trans hk)⟩
  refine ⟨max N1 N2, fun n hn fuel => ?_⟩
  have n1 : N1 ≤ n := (le_max_left _ _).trans hn
  have n2 : N2 ≤ n := (le_max_right _ _).trans hn
  induction fuel with
  | zero =>
    intro source_ acc l _ hl
    unfold segments at hl
    cases hl
  | succ fuel ih =>
    intro source_ acc l hsrc hl
    unfold segments at hl
    rw [← hS] at hl
    obtain ⟨b, b1, b2⟩ := hN2 source_ hsrc n n2
    have b3 := b2 n le_rfl
    obtain ⟨r, r1, r2⟩ := hN1 b b1 n n1
    rw [b3] at hl
    simp only at hl
    rw [r1] at hl
    cases r with
    | error err => cases hl
    | ok c =>
      obtain ⟨c1, c2, c3⟩ := r2 c rfl
      simp only at hl
      have c2' := c2
      rw [← c1] at c2'
      by_cases hend : acc + S.saddleVector c = v
      · rw [if_pos hend] at hl
        injection hl with hl
        injection hl with hl
        subst hl
        refine ⟨by simp [c1, b1, c2], by simpa using c3, by simp, by simpa using hend, c, rfl, ?_⟩
        rw [c1]
        exact b3
      · rw [if_neg hend] at hl
        by_cases hor : dbg = true ∧ Vec.orientation A (v - (acc + S.saddleVector c)) v ≠ .same
        · rw [if_pos hor] at hl
          cases hl
        rw [if_neg hor] at hl
        have ht := C139.target_lt h b1 c2
        obtain ⟨V, hV, htV⟩ := exists_vertex h ht
        have hnext : S.tri.nextAtVertex c.target < S.tri.size := (nonboundary h hV _ ((around hf h hθ hV).2.next_mem htV)).1
        have hrest : ∃ l', segments A R dbg upper n v fuel (S.tri.nextAtVertex c.target) (acc + S.saddleVector c) = some (.ok l') ∧
            l = c :: l' := by
          split at hl
          · cases hl
          · cases hl
          · cases hl
          · cases hseg : segments A R dbg upper n v fuel (S.tri.nextAtVertex c.target) (acc + S.saddleVector c) with
            | none => rw [hseg] at hl; cases hl
            | some r =>
              rw [hseg] at hl
              cases r with
              | error err => cases hl
              | ok l' =>
                refine ⟨l', rfl, ?_⟩
                injection hl with hl
                injection hl with hl
                exact hl.symm
        obtain ⟨l', l1, rfl⟩ := hrest
        obtain ⟨i1, i2, i3, i4, d, i5, i6⟩ := ih _ _ _ hnext l1
        have hd : d ∈ l' := List.mem_of_mem_head? i5
        -- the next saddle connection goes straight on
        obtain ⟨-, σ, hσ⟩ := SaddleSearch.isDirection h.shut (SaddleConnections.cor h.shut hf hθ) ht (C139.reverse h b1 c2)
        obtain ⟨x, hx, τ, x1, x2⟩ := exists_continue hf h hθ ht hσ
        have hcv : SameDirection (S.saddleVector c) v :=
          ⟨by rw [cross_comm, c3.1, neg_zero], by rw [dot_comm]; exact c3.2⟩
        have xv := inCorner_same hf x1 hcv
        obtain ⟨M, hM⟩ := continue_eq hf A h hθ ht hσ xv x2
        obtain ⟨y, -, hy⟩ := hN2 _ hnext n n2
        have hyx : y = x := by
          have k1 := hM (max n M) (le_max_right _ _)
          rw [hy (max n M) (le_max_left _ _)] at k1
          injection k1 with k1
          injection k1
        have hdx : d.source = x := by
          rw [hy n le_rfl] at i6
          injection i6 with i6
          injection i6 with i6
          rw [← hyx, i6]
        have hcont : Continues f S θ c d := by
          refine ⟨σ, τ, hσ, ?_, ?_⟩
          · rw [hdx]
            exact inCorner_same hf xv (i2 d hd)
          · rw [hdx]
            exact x2
        refine ⟨?_, ?_, ?_, ?_, c, rfl, ?_⟩
        · intro z hz
          rcases List.mem_cons.1 hz with rfl | hz
          · exact ⟨by rw [c1]; exact b1, c2'⟩
          · exact i1 z hz
        · intro z hz
          rcases List.mem_cons.1 hz with rfl | hz
          · exact c3
          · exact i2 z hz
        · cases l' with
          | nil => simp
          | cons d' l' =>
            obtain rfl : d' = d := by simpa using i5
            exact List.isChain_cons_cons.2 ⟨hcont, i3⟩
        · rw [List.map_cons, List.sum_cons, ← add_assoc]
          exact i4
        · rw [c1]
          exact b3

/-- What describes a saddle connection. -/
def key (S : FlatTri T) (c : Saddle) : HE × Vec T × HE := (c.source, S.saddleVector c, c.target)

/-- The loop finds straight segments. -/
theorem segments_complete {f : T →+* ℝ} (hf : StrictMono f) (A : Option (Approx T K)) {dbg : Bool} {R : GenericRetriangulation T}
    (h : Closed dbg R.codomain) {θ : HE → ℝ} (hθ : AllCorners f R.codomain θ) {upper : Vec T → Bound}
    (hup : ∀ v, dot v v ≤ ((upper v).square : T)) {v : Vec T} :
    ∀ (l : List Saddle) (c : Saddle) (source_ : HE) (acc : Vec T),
      (∀ d ∈ c :: l, d.source < R.codomain.tri.size ∧ IsSaddleConnection R.codomain d.source (R.codomain.saddleVector d) d.target) →
      (∀ d ∈ c :: l, SameDirection v (R.codomain.saddleVector d) ∧
        dot (R.codomain.saddleVector d) (R.codomain.saddleVector d) ≤ dot v v) →
      (c :: l).IsChain (Continues f R.codomain θ) → acc + ((c :: l).map R.codomain.saddleVector).sum = v →
      (∀ d ∈ (c :: l).dropLast, MarkedPoint f R.codomain d.target) →
      (∃ N, ∀ n ≥ N, R.codomain.sectorFrom A n source_ (R.codomain.vec source_) .counterclockwise v false = some (.ok c.source)) →
      ∃ N, ∀ n ≥ N, ∀ fuel > l.length, ∃ l', segments A R dbg upper n v fuel source_ acc = some (.ok l') ∧
        l'.map (key R.codomain) = (c :: l).map (key R.codomain) := by
  set S := R.codomain with hS
  intro l
  induction l with
  | nil =>
    intro c source_ acc h1 h2 h3 h4 h5 ⟨M, h6⟩
    obtain ⟨k1, k2⟩ := h1 c (by simp)
    obtain ⟨k3, k4⟩ := h2 c (by simp)
    obtain ⟨N, hN⟩ := C136.inSector_correct hf A h k1 hup v
    refine ⟨max M N, fun n hn fuel hfuel => ?_⟩
    obtain ⟨fuel, rfl⟩ : ∃ m, fuel = m + 1 := ⟨fuel - 1, by omega⟩
    obtain ⟨r, r1, -, r2, -⟩ := hN n ((le_max_right _ _).trans hn)
    obtain ⟨c', rfl, c1, c2, c3⟩ := r2 _ _ k2 k3 k4
    refine ⟨[c'], ?_, by simp [key, c1, c2, c3]⟩
    unfold segments
    rw [← hS, h6 n ((le_max_left _ _).trans hn)]
    simp only
    rw [r1]
    simp only
    rw [if_pos]
    rw [c2]
    simpa using h4
  | cons d l ih =>
    intro c source_ acc h1 h2 h3 h4 h5 ⟨M, h6⟩
    obtain ⟨k1, k2⟩ := h1 c (by simp)
    obtain ⟨k3, k4⟩ := h2 c (by simp)
    obtain ⟨N, hN⟩ := C136.inSector_correct hf A h k1 hup v
    obtain ⟨⟨σ, τ, g1, g2, g3⟩, g4⟩ := List.isChain_cons_cons.1 h3
    have ht := C139.target_lt h k1 k2
    have hdv : SameDirection (S.saddleVector d) v := by
      have := (h2 d (by simp)).1
      exact ⟨by rw [cross_comm, this.1, neg_zero], by rw [dot_comm]; exact this.2⟩
    obtain ⟨N', hN'⟩ := ih d (S.tri.nextAtVertex c.target) (acc + S.saddleVector c) (fun z hz => h1 z (List.mem_cons_of_mem _ hz))
      (fun z hz => h2 z (List.mem_cons_of_mem _ hz)) g4
      (by rw [← h4]; simp only [List.map_cons, List.sum_cons]; abel)
      (fun z hz => h5 z (by rw [List.dropLast_cons_of_ne_nil (by simp)]; exact List.mem_cons_of_mem _ hz))
      (continue_eq hf A h hθ ht g1 (inCorner_same hf g2 hdv) g3)
    obtain ⟨m1, N'', m2⟩ := C52.isMarked_eq hf h ht
    have hpos : 0 < dot v ((d :: l).map S.saddleVector).sum := by
      refine dot_sum_pos v _ (by simp) fun w hw => ?_
      obtain ⟨z, hz, rfl⟩ := List.mem_map.1 hw
      exact (h2 z (List.mem_cons_of_mem _ hz)).1.2
    have hrest : v - (acc + S.saddleVector c) = ((d :: l).map S.saddleVector).sum := by
      rw [← h4, List.map_cons, List.sum_cons]
      abel
    refine ⟨max (max M N) (max N' N''), fun n hn fuel hfuel => ?_⟩
    have f1 : M ≤ n := le_trans (le_trans (le_max_left _ _) (le_max_left _ _)) hn
    have f2 : N ≤ n := le_trans (le_trans (le_max_right _ _) (le_max_left _ _)) hn
    have f3 : N' ≤ n := le_trans (le_trans (le_max_left _ _) (le_max_right _ _)) hn
    have f4 : N'' ≤ n := le_trans (le_trans (le_max_right _ _) (le_max_right _ _)) hn
    obtain ⟨fuel, rfl⟩ : ∃ m, fuel = m + 1 := ⟨fuel - 1, by omega⟩
    obtain ⟨r, r1, -, r2, -⟩ := hN n f2
    obtain ⟨c', rfl, c1, c2, c3⟩ := r2 _ _ k2 k3 k4
    obtain ⟨l', l1, l2⟩ := hN' n f3 fuel (by simpa using hfuel)
    have hmark : (if dbg = true then S.isMarked n c'.target else some (.ok true)) = some (.ok true) := by
      cases dbg
      · rfl
      · rw [c3]
        obtain ⟨b, hb⟩ := m2 n f4
        obtain ⟨m, rfl, hm⟩ := m1 n b hb
        rw [hm.2 (h5 c (by rw [List.dropLast_cons_of_ne_nil (by simp)]; simp))] at hb
        exact hb
    refine ⟨c' :: l', ?_, by rw [List.map_cons, List.map_cons, l2]; simp [key, c1, c2, c3]⟩
    unfold segments
    rw [← hS, h6 n f1]
    simp only
    rw [r1]
    simp only
    rw [c2, if_neg, if_neg, hmark]
    · simp only
      rw [c3, l1]
      rfl
    · rintro ⟨-, hne⟩
      refine hne ((orientation_same A).2 ?_)
      rw [hrest, dot_comm]
      exact hpos
    · intro heq
      rw [heq, sub_self] at hrest
      rw [← hrest] at hpos
      simp [dot] at hpos

/-- Let the source and the target of a straight segment in the domain correspond to vertices of the codomain. Then, whenever the image of
the segment is computed, it is a straight segment with the same vector that starts at the same angle. If there is such a segment that
only crosses marked points, then it is the image. -/
theorem segment_correct {f : T →+* ℝ} (hf : StrictMono f) (A : Option (Approx T K)) {dbg : Bool} {R : GenericRetriangulation T}
    (h : Closed dbg R.domain) (h' : Closed dbg R.codomain) {θ θ' : HE → ℝ} (hθ : AllCorners f R.domain θ)
    (hθ' : AllCorners f R.codomain θ') {upper : Vec T → Bound} (hup : ∀ v, dot v v ≤ ((upper v).square : T))
    {V V' : Finset HE} {c c' : Saddle} {σ σ' : ℝ} (hr : Corresponds f R θ θ' V V' c c' σ σ')
    {W W' : Finset HE} {d d' : Saddle} {ρ ρ' : ℝ} (hr' : Corresponds f R θ θ' W W' d d' ρ ρ')
    {e : HE} (he : e ∈ V) {v : Vec T} {τ α : ℝ} (hv : InCorner f R.domain θ e τ v) (ht : TurnsTo R.domain θ c.source σ α e τ)
    (hα : α < ∑ x ∈ V, θ x) {t : HE} (het : t ∈ W) {μ β : ℝ} (hv' : InCorner f R.domain θ t μ (-v))
    (ht' : TurnsTo R.domain θ d.source ρ β t μ) (hβ : β < ∑ x ∈ W, θ x) :
    ∃ e' τ', e' ∈ V' ∧ InCorner f R.codomain θ' e' τ' v ∧ TurnsTo R.codomain θ' c'.source σ' α e' τ' ∧
      (∃ N, ∀ fuel ≥ N, ∀ r, R.segment A dbg upper fuel e t v = some (.ok r) → ∃ l, r = some l ∧ StraightSegment f R.codomain θ' e' v l) ∧
      ∀ l, StraightSegment f R.codomain θ' e' v l → (∀ c ∈ l.dropLast, MarkedPoint f R.codomain c.target) →
        ∃ N, ∀ fuel ≥ N, ∃ l', R.segment A dbg upper fuel e t v = some (.ok (some l')) ∧
          l'.map (key R.codomain) = l.map (key R.codomain) := by
  have hpi := pi_pos
  obtain ⟨e', he', τ', N1, a1, a2, a3⟩ := source_correct hf A h h' hθ hθ' hr he hv ht hα
  obtain ⟨t', -, -, N2, b1, -, -⟩ := source_correct hf A h h' hθ hθ' hr' het hv' ht' hβ
  have hlt := (nonboundary h' hr'.vertex' _ hr'.source').1
  have helt := (nonboundary h' hr.vertex' _ he').1
  have ha := (around hf h' hθ' hr.vertex').2
  have hv0 : v ≠ 0 := by
    rintro rfl
    exact ha.corner_ne he' a2 (by ext <;> simp [Vec.map])
  have hp := ha.pos he'
  obtain ⟨N3, c1⟩ := sectorFrom_eq hf A h' hθ' helt (k := 0) (v := v) (τ := τ') (by simpa using a2) (by rw [arc_zero]; linarith [a2.2.1])
  simp only [iterate_zero_apply] at c1
  have seg : ∀ fuel ≥ max N1 N2, R.segment A dbg upper fuel e t v = (segments A R dbg upper fuel v fuel e' 0).map fun r => r.map some := by
    intro fuel hfuel
    unfold GenericRetriangulation.segment
    rw [a1 fuel ((le_max_left _ _).trans hfuel)]
    simp only
    rw [b1 fuel ((le_max_right _ _).trans hfuel)]
  refine ⟨e', τ', he', a2, a3, ?_, ?_⟩
  · obtain ⟨N4, k⟩ := segments_sound hf A h' hθ' hup hv0
    refine ⟨max (max N1 N2) (max N3 N4), fun fuel hfuel r hr => ?_⟩
    rw [seg fuel (le_trans (le_max_left _ _) hfuel)] at hr
    cases hs : segments A R dbg upper fuel v fuel e' 0 with
    | none => rw [hs] at hr; cases hr
    | some r' =>
      rw [hs] at hr
      cases r' with
      | error err => cases hr
      | ok l =>
        injection hr with hr
        injection hr with hr
        subst hr
        obtain ⟨g1, g2, g3, g4, z, g5, g6⟩ := k fuel (le_trans (le_trans (le_max_right _ _) (le_max_right _ _)) hfuel) _ _ _ _ helt hs
        refine ⟨l, rfl, g1, g2, ⟨z, g5, ?_⟩, g3, by simpa using g4⟩
        rw [c1 fuel (le_trans (le_trans (le_max_left _ _) (le_max_right _ _)) hfuel)] at g6
        injection g6 with g6
        injection g6 with g6
        exact g6.symm
  · intro l hl hm
    obtain ⟨z, hz, hz'⟩ := hl.starts
    cases l with
    | nil => cases hz
    | cons y l =>
      obtain rfl : y = z := by simpa using hz
      have hle : ∀ d ∈ y :: l, dot (R.codomain.saddleVector d) (R.codomain.saddleVector d) ≤ dot v v := by
        intro d hd
        obtain ⟨s1, s2, hs⟩ := List.append_of_mem hd
        have hsum := hl.vector
        rw [hs] at hsum
        have hother : ∀ w ∈ (s1 ++ s2).map R.codomain.saddleVector, SameDirection v w := by
          intro w hw
          obtain ⟨q, hq, rfl⟩ := List.mem_map.1 hw
          refine hl.direction q ?_
          rw [hs]
          rcases List.mem_append.1 hq with hq | hq <;> simp [hq]
        refine part_le hv0 (hl.direction d hd) (r := ((s1 ++ s2).map R.codomain.saddleVector).sum) ?_ ?_ ?_
        · by_cases hnil : (s1 ++ s2).map R.codomain.saddleVector = []
          · rw [hnil]
            simp [dot]
          · exact (dot_sum_pos v _ hnil fun w hw => (hother w hw).2).le
        · have : ∀ L : List (Vec T), (∀ w ∈ L, SameDirection v w) → cross v L.sum = 0 := by
            intro L
            induction L with
            | nil => intro _; simp [cross]
            | cons w L ih =>
              intro hL
              have e1 := (hL w (by simp)).1
              have e2 := ih fun x hx => hL x (List.mem_cons_of_mem _ hx)
              rw [List.sum_cons]
              unfold cross at *
              simp only [Vec.add_x, Vec.add_y]
              linear_combination e1 + e2
          exact this _ hother
        · rw [← hsum]
          simp only [List.map_append, List.map_cons, List.sum_append, List.sum_cons]
          abel
      obtain ⟨N4, k⟩ := segments_complete hf A h' hθ' hup (v := v) l y e' 0 hl.connections
        (fun d hd => ⟨hl.direction d hd, hle d hd⟩) hl.straight (by rw [zero_add]; exact hl.vector) hm
        ⟨N3, fun n hn => by rw [hz']; exact c1 n hn⟩
      refine ⟨max (max N1 N2) (max N4 (l.length + 1)), fun fuel hfuel => ?_⟩
      have f1 := le_trans (le_max_left _ _) hfuel
      have f2 : N4 ≤ fuel := le_trans (le_trans (le_max_left _ _) (le_max_right _ _)) hfuel
      have f3 : l.length + 1 ≤ fuel := le_trans (le_trans (le_max_right _ _) (le_max_right _ _)) hfuel
      obtain ⟨l', l1, l2⟩ := k fuel f2 fuel (by omega)
      refine ⟨l', ?_, l2⟩
      rw [seg fuel f1, l1]
      rfl

/-- A segment that starts or ends at a vertex that does not exist in the codomain has no image. -/
theorem vanishes (A : Option (Approx T K)) {dbg : Bool} {R : GenericRetriangulation T} (h : Closed dbg R.domain) {upper : Vec T → Bound}
    {V : Finset HE} (hV : V ∈ R.domain.tri.vertexes) (hr : R.relation V = none) {e t : HE} (v : Vec T) (fuel : ℕ) (he : e ∈ V) :
    R.segment A dbg upper fuel e t v = some (.ok none) := by
  unfold GenericRetriangulation.segment GenericRetriangulation.source
  rw [C75.source_eq (IsFlat.flat h.reachable h.flat) hV he]
  simp only
  rw [hr]

/-- The hypotheses of `vanishes` are met when the vertex of a surface has no counterpart. -/
example : Closed true flatEll ∧ Finset.range 18 ∈ flatEll.tri.vertexes ∧
    (⟨flatEll, flatTorus, fun _ => none⟩ : GenericRetriangulation ℤ).relation (Finset.range 18) = none ∧ 4 ∈ Finset.range 18 :=
  ⟨flatEll_closed, C21.ell_vertex.1, rfl, by decide⟩

/-- The hypotheses of `segment_correct` are met by a segment. -/
example : ∃ (θ : HE → ℝ) (τ α μ β : ℝ), AllCorners (Int.castRingHom ℝ) flatEll θ ∧ Closed true flatEll ∧
    (∀ v : Vec ℤ, dot v v ≤ ((Bound.upperInt v).square : ℤ)) ∧
    Corresponds (Int.castRingHom ℝ) turnedEll θ θ (Finset.range 18) (Finset.range 18) (.ofHalfEdge 0) (.ofHalfEdge 2) 0 0 ∧
    InCorner (Int.castRingHom ℝ) flatEll θ 4 τ ⟨2, 1⟩ ∧ TurnsTo flatEll θ 0 0 α 4 τ ∧ α < ∑ x ∈ Finset.range 18, θ x ∧
    InCorner (Int.castRingHom ℝ) flatEll θ 3 μ (-⟨2, 1⟩) ∧ TurnsTo flatEll θ 0 0 β 3 μ ∧ β < ∑ x ∈ Finset.range 18, θ x := by
  obtain ⟨θ, hθ⟩ := C39.corners_exist (f := Int.castRingHom ℝ) Int.cast_strictMono flatEll_closed
  obtain ⟨τ, α, h1, h2, h3⟩ := turnedEll_direction Int.cast_strictMono hθ (e := 4) (by decide) (v := ⟨2, 1⟩) (by decide +kernel)
  obtain ⟨μ, β, h4⟩ := turnedEll_direction Int.cast_strictMono hθ (e := 3) (by decide) (v := -⟨2, 1⟩) (by decide +kernel)
  exact ⟨θ, τ, α, μ, β, hθ, flatEll_closed, fun v => le_rfl, turnedEll_corresponds Int.cast_strictMono hθ, h1, h2, h3, h4⟩

/-- The image of that segment. -/
example : (match turnedEll.segment (none : Option (Approx ℤ ℚ)) true Bound.upperInt 200 4 3 ⟨2, 1⟩ with
    | some (.ok (some l)) => decide (l.map (key flatEll) = [(0, ⟨2, 1⟩, 3)])
    | _ => false) = true := by
  decide +kernel

/-- Two saddle connections that go straight through a marked point are a segment to which the second part of `segment_correct`
applies. -/
example : ∃ θ, AllCorners (Int.castRingHom ℝ) flatTorus θ ∧
    StraightSegment (Int.castRingHom ℝ) flatTorus θ 0 ⟨2, 0⟩ [.ofHalfEdge 0, .ofHalfEdge 0] ∧
    ∀ c ∈ [Saddle.ofHalfEdge 0, .ofHalfEdge 0].dropLast, MarkedPoint (Int.castRingHom ℝ) flatTorus c.target := by
  have hf : StrictMono (Int.castRingHom ℝ) := Int.cast_strictMono
  have h := C30.flatTorus_closed
  obtain ⟨θ, hθ⟩ := C39.corners_exist (f := Int.castRingHom ℝ) hf h
  have e0 : flatTorus.saddleVector (.ofHalfEdge 0) = flatTorus.vec 0 := by decide +kernel
  have e1 : -flatTorus.vec 0 = flatTorus.vec 1 := by decide +kernel
  have corner : ∀ e < 6, InCorner (Int.castRingHom ℝ) flatTorus θ e 0 (flatTorus.vec e) := by
    intro e he
    obtain ⟨V, hV, heV⟩ := exists_vertex h he
    exact ⟨le_rfl, ((around hf h hθ hV).2.pos heV).1, turns_self _⟩
  have c0 : IsSaddleConnection flatTorus 0 (flatTorus.saddleVector (.ofHalfEdge 0)) 1 := .halfEdge e0 rfl
  refine ⟨θ, hθ, ⟨?_, ?_, ⟨_, rfl, rfl⟩, ?_, ?_⟩, ?_⟩
  · intro c hc
    obtain rfl : c = .ofHalfEdge 0 := by simpa using hc
    exact ⟨by decide, c0⟩
  · intro c hc
    obtain rfl : c = .ofHalfEdge 0 := by simpa using hc
    rw [e0]
    exact ⟨by decide, by decide⟩
  · rw [List.isChain_cons_cons]
    refine ⟨?_, by simp⟩
    obtain ⟨e, he, τ, h1, h2⟩ := exists_continue hf h hθ (t := 1) (by decide) (u := flatTorus.vec 0) (σ := 0) (by rw [e1]; exact corner 1 (by decide))
    have h3 : e = 0 := by
      obtain ⟨V, hV, heV⟩ := exists_vertex h he
      have := (C75.inCorner_exists hf (none : Option (Approx ℤ ℚ)) h.reachable h.flat hV (fun e he => (nonboundary h hV e he).2)
        (around hf h hθ hV).1 heV (flatTorus.vec 0)).2 ⟨by decide, τ, h1⟩
      revert this
      have : ∀ e < flatTorus.tri.size, flatTorus.inSector (none : Option (Approx ℤ ℚ)) e (flatTorus.vec 0) = true → e = 0 := by
        decide +kernel
      exact this e he
    subst h3
    exact ⟨0, τ, by rw [e0, e1]; exact corner 1 (by decide), by rw [e0]; exact h1, h2⟩
  · decide +kernel
  · intro c hc
    obtain rfl : c = .ofHalfEdge 0 := by simpa using hc
    have hm := C52.isMarked_eq hf h (e := 1) (by decide)
    obtain ⟨m, h1, h2⟩ := hm.1 100 (.ok true) (by decide +kernel)
    injection h1 with h1
    exact h2.1 h1.symm

end Verif.C141
