import Verif.Lemmas.CollapsedExamples
import Verif.Model.SaddlePlane
import Verif.Props.C142

/-!
C146: saddle connections are found from their direction and a nearby half edge or saddle connection.

C147: searching clockwise.
-/

set_option linter.unusedSectionVars false

namespace Verif.C146

open Verif Spec Tri FlatTri Examples Vec Real Tighten Function C140 C141 ByLength

variable {T : Type} [CommRing T] [LinearOrder T] [IsStrictOrderedRing T]
variable {K : Type} [Field K] [LinearOrder K] [IsStrictOrderedRing K]

theorem then_vector {f : T →+* ℝ} (hf : StrictMono f) (A : Option (Approx T K)) {dbg : Bool} {S : FlatTri T} (h : Closed dbg S)
    {upper : Vec T → Bound} (hup : ∀ v, dot v v ≤ ((upper v).square : T)) {e : HE} (he : e < S.tri.size) {v : Vec T} {t : HE}
    (hs : IsSaddleConnection S e v t) {search : ℕ → Option (Except Err HE)} (hN : ∃ N, ∀ fuel ≥ N, search fuel = some (.ok e)) :
    ∃ N, ∀ fuel ≥ N, ∃ c, andThen (search fuel) (fun sector => Saddle.inSector A dbg upper fuel S sector v) = some (.ok c) ∧ c.source = e ∧
      S.saddleVector c = v ∧ c.target = t := by
  obtain ⟨N, hN⟩ := hN
  obtain ⟨M, hM⟩ := C136.inSector_finds hf A h he hup hs
  refine ⟨max N M, fun fuel hfuel => ?_⟩
  rw [hN fuel (le_of_max_le_left hfuel)]
  exact hM fuel (le_of_max_le_right hfuel)

theorem then_direction {f : T →+* ℝ} (hf : StrictMono f) (A : Option (Approx T K)) {dbg : Bool} {S : FlatTri T} (h : Closed dbg S)
    {sort : List Saddle → List Saddle} (hsort : SortsByLength S A sort)
    {upper : Vec T → Bound} (hup : ∀ v, dot v v ≤ ((upper v).square : T)) {e : HE} (he : e < S.tri.size) {v w : Vec T} {t : HE}
    (hs : IsSaddleConnection S e w t) (hd : SameDirection v w) {search : ℕ → Option (Except Err HE)}
    (hN : ∃ N, ∀ fuel ≥ N, search fuel = some (.ok e)) :
    ∃ N, ∀ fuel ≥ N, ∃ c, andThen (search fuel) (fun sector => Saddle.inSectorDirection A dbg sort upper fuel S sector v) = some (.ok c) ∧
      c.source = e ∧ S.saddleVector c = w ∧ c.target = t := by
  obtain ⟨N, hN⟩ := hN
  obtain ⟨M, hM⟩ := C136.direction_finds hf A h he hsort hup hs hd
  refine ⟨max N M, fun fuel hfuel => ?_⟩
  rw [hN fuel (le_of_max_le_left hfuel)]
  exact hM fuel (le_of_max_le_right hfuel)

theorem plane_sector {f : T →+* ℝ} (hf : StrictMono f) (A : Option (Approx T K)) {dbg : Bool} {S : FlatTri T} (h : Closed dbg S)
    {θ : HE → ℝ} (hθ : AllCorners f S θ) {plane e : HE} (hp : plane < S.tri.size) {v : Vec T} {α : ℝ} (h1 : -π < α ∧ α < π)
    (hα : Turns ((S.vec plane).map f) α (v.map f)) (ht : TurnedInto S θ plane α e) :
    ∃ N, ∀ fuel ≥ N, S.sectorInPlane A fuel plane v = some (.ok e) := by
  obtain ⟨V, hV, hpV⟩ := exists_vertex h hp
  have hb : ∀ e ∈ V, S.tri.boundary e = false := fun e he => (nonboundary h hV e he).2
  have hc := (around hf h hθ hV).1
  obtain ⟨e', N, k1, -, k2⟩ := C21.sectorInPlane_correct hf A h.reachable h.flat hV hb hc hpV h1.1 h1.2 hα
  rw [C21.turnedInto_unique hf h.reachable h.flat hV hb hc hpV k2 ht] at k1
  exact ⟨N, k1⟩

/-- A saddle connection is found from its vector and a half edge from which one gets to it by turning by less than π. -/
theorem inPlane_finds {f : T →+* ℝ} (hf : StrictMono f) (A : Option (Approx T K)) {dbg : Bool} {S : FlatTri T} (h : Closed dbg S)
    {θ : HE → ℝ} (hθ : AllCorners f S θ) {upper : Vec T → Bound} (hup : ∀ v, dot v v ≤ ((upper v).square : T)) {plane e : HE}
    (hp : plane < S.tri.size) (he : e < S.tri.size) {v : Vec T} {t : HE} (hs : IsSaddleConnection S e v t) {α : ℝ} (h1 : -π < α ∧ α < π)
    (hα : Turns ((S.vec plane).map f) α (v.map f)) (ht : TurnedInto S θ plane α e) :
    ∃ N, ∀ fuel ≥ N, ∃ c, Saddle.inPlane A dbg upper fuel S plane v = some (.ok c) ∧ c.source = e ∧ S.saddleVector c = v ∧ c.target = t :=
  then_vector hf A h hup he hs (plane_sector hf A h hθ hp h1 hα ht)

/-- A saddle connection is found from its direction and a half edge from which one gets to it by turning by less than π. -/
theorem inPlaneDirection_finds {f : T →+* ℝ} (hf : StrictMono f) (A : Option (Approx T K)) {dbg : Bool} {S : FlatTri T} (h : Closed dbg S)
    {θ : HE → ℝ} (hθ : AllCorners f S θ) {sort : List Saddle → List Saddle} (hsort : SortsByLength S A sort) {upper : Vec T → Bound}
    (hup : ∀ v, dot v v ≤ ((upper v).square : T)) {plane e : HE} (hp : plane < S.tri.size) (he : e < S.tri.size) {v w : Vec T} {t : HE}
    (hs : IsSaddleConnection S e w t) (hd : SameDirection v w) {α : ℝ} (h1 : -π < α ∧ α < π)
    (hα : Turns ((S.vec plane).map f) α (v.map f)) (ht : TurnedInto S θ plane α e) :
    ∃ N, ∀ fuel ≥ N, ∃ c, Saddle.inPlaneDirection A dbg sort upper fuel S plane v = some (.ok c) ∧ c.source = e ∧ S.saddleVector c = w ∧
      c.target = t :=
  then_direction hf A h hsort hup he hs hd (plane_sector hf A h hθ hp h1 hα ht)

/-- A saddle connection is found from its direction and a half edge from which one gets to it by turning by less than a quarter turn. -/
theorem alongVertical_finds {f : T →+* ℝ} (hf : StrictMono f) (A : Option (Approx T K)) {dbg : Bool} {S : FlatTri T} (h : Closed dbg S)
    {θ : HE → ℝ} (hθ : AllCorners f S θ) {sort : List Saddle → List Saddle} (hsort : SortsByLength S A sort) {upper : Vec T → Bound}
    (hup : ∀ v, dot v v ≤ ((upper v).square : T)) {plane e : HE} (hp : plane < S.tri.size) (he : e < S.tri.size) {v w : Vec T} {t : HE}
    (hs : IsSaddleConnection S e w t) (hd : SameDirection v w) {α : ℝ} (h1 : -(π / 2) < α ∧ α < π / 2)
    (hα : Turns ((S.vec plane).map f) α (v.map f)) (ht : TurnedInto S θ plane α e) :
    ∃ N, ∀ fuel ≥ N, ∃ c, Saddle.alongVertical A dbg sort upper fuel S v plane = some (.ok c) ∧ c.source = e ∧ S.saddleVector c = w ∧
      c.target = t := by
  have hpi := pi_pos
  obtain ⟨V, hV, hpV⟩ := exists_vertex h hp
  have hin : S.inHalfPlane A plane v = true := by
    unfold FlatTri.inHalfPlane
    rw [decide_eq_true_iff, orientation_same]
    have h0 := (around hf h hθ hV).2.vec_ne hpV
    obtain ⟨r, hr, e1⟩ := hα
    have := dot_rotate ((S.vec plane).map f) 0 α 1 r
    rw [rotate_zero, one_smul, one_mul, sub_zero, ← e1, dot_map] at this
    have hpos : 0 < f (dot (S.vec plane) v) := by
      rw [this]
      exact mul_pos (mul_pos hr (dot_self_pos h0)) (cos_pos_of_mem_Ioo h1)
    rwa [← map_zero f, hf.lt_iff_lt] at hpos
  unfold Saddle.alongVertical
  simp only [hin, Bool.not_true, Bool.false_eq_true, if_false]
  exact then_direction hf A h hsort hup he hs hd (plane_sector hf A h hθ hp ⟨by linarith, by linarith⟩ hα ht)

/-- A saddle connection is found from its vector and a half edge when both are at angles `p` and `q` of less than a quarter turn from a
vertical and one gets from the half edge to the saddle connection within the half plane. -/
theorem inHalfPlane_finds {f : T →+* ℝ} (hf : StrictMono f) (A : Option (Approx T K)) {dbg : Bool} {S : FlatTri T} (h : Closed dbg S)
    {θ : HE → ℝ} (hθ : AllCorners f S θ) {upper : Vec T → Bound} (hup : ∀ v, dot v v ≤ ((upper v).square : T)) {side e : HE}
    (hp : side < S.tri.size) (he : e < S.tri.size) {vertical v : Vec T} (hvert : vertical ≠ 0) {t : HE} (hs : IsSaddleConnection S e v t)
    {p q : ℝ} (h1 : -(π / 2) < p ∧ p < π / 2) (h2 : -(π / 2) < q ∧ q < π / 2) (h3 : Turns (vertical.map f) p ((S.vec side).map f))
    (h4 : Turns (vertical.map f) q (v.map f)) (ht : TurnedInto S θ side (q - p) e) :
    ∃ N, ∀ fuel ≥ N, ∃ c, Saddle.inHalfPlane A dbg upper fuel S side vertical v = some (.ok c) ∧ c.source = e ∧ S.saddleVector c = v ∧
      c.target = t := by
  refine then_vector hf A h hup he hs ?_
  obtain ⟨V, hV, hpV⟩ := exists_vertex h hp
  have hb : ∀ e ∈ V, S.tri.boundary e = false := fun e he => (nonboundary h hV e he).2
  have hc := (around hf h hθ hV).1
  obtain ⟨e', N, k1, -, k2⟩ := C21.sectorInHalfPlane_correct hf A h.reachable h.flat hV hb hc hpV hvert h1 h2 h3 h4
  rw [C21.turnedInto_unique hf h.reachable h.flat hV hb hc hpV k2 ht] at k1
  exact ⟨N, k1⟩

/-- The first saddle connection counterclockwise from a saddle connection, inclusive, in some direction is found. -/
theorem counterclockwise_finds {f : T →+* ℝ} (hf : StrictMono f) (A : Option (Approx T K)) {dbg : Bool} {S : FlatTri T} (h : Closed dbg S)
    {θ : HE → ℝ} (hθ : AllCorners f S θ) {sort : List Saddle → List Saddle} (hsort : SortsByLength S A sort) {upper : Vec T → Bound}
    (hup : ∀ v, dot v v ≤ ((upper v).square : T)) {a : Saddle} {e : HE}
    (ha : a.source < S.tri.size ∧ IsSaddleConnection S a.source (S.saddleVector a) a.target) (he : e < S.tri.size) {v w : Vec T} {t : HE}
    (hs : IsSaddleConnection S e w t) (hd : SameDirection v w) {σ τ α : ℝ} (hσ : InCorner f S θ a.source σ (S.saddleVector a))
    (hτ : InCorner f S θ e τ v) (h1 : α < 2 * π) (ht : TurnsTo S θ a.source σ α e τ) :
    ∃ N, ∀ fuel ≥ N, ∃ c, Saddle.counterclockwise A dbg sort upper fuel S a v = some (.ok c) ∧ c.source = e ∧ S.saddleVector c = w ∧
      c.target = t := by
  refine then_direction hf A h hsort hup he hs hd ?_
  obtain ⟨V, hV, haV⟩ := exists_vertex h ha.1
  have hb : ∀ e ∈ V, S.tri.boundary e = false := fun e he => (nonboundary h hV e he).2
  obtain ⟨hc, hA⟩ := around hf h hθ hV
  have hin := C136.sector_of_connection hf A h ha.1 ha.2 (v := S.saddleVector a) ⟨by unfold cross; ring, saddle_pos h.shut hf hθ ha.2 ha.1⟩
  have hv0 : v ≠ 0 := by
    rintro rfl
    have := hd.2
    simp [dot] at this
  obtain ⟨e', N, k1, -, k2⟩ := C21.sectorFrom_counterclockwise hf A h.reachable h.flat hV hb hc haV hin hv0 false
  have hpos := hA.pos haV
  have k3 := k2 σ hσ.1 (by linarith [hσ.2.1, pi_pos]) hσ.2.2 α ⟨C143.turnsTo_turns hA haV hσ hτ ht, ht.1, h1⟩
  have k4 : TurnedInto S θ a.source (σ + α) e := by
    obtain ⟨-, n, m1, m2⟩ := ht
    refine ⟨a.source, 0, n, rfl, m1, ?_, ?_⟩
    · rw [arc_zero]
      linarith [hτ.1]
    · rw [arc_zero, arc_succ, m1]
      linarith [hτ.2.1]
  rw [C21.turnedInto_unique hf h.reachable h.flat hV hb hc haV k3 k4] at k1
  exact ⟨N, k1⟩

/-- The saddle connection that is made from a chain starts and ends in the sectors one gets to by turning by less than π from the given half
edges. -/
theorem inPlanes_sectors {f : T →+* ℝ} (hf : StrictMono f) (A : Option (Approx T K)) {debug : Bool} {S : FlatTri T} (h : Closed debug S)
    {θ : HE → ℝ} (hθ : AllCorners f S θ) (dbg : Bool) {p q e t : HE} (hp : p < S.tri.size) (hq : q < S.tri.size) {chain : ℕ → ℤ}
    (h0 : S.chainVector chain ≠ 0) {α β : ℝ} (h1 : -π < α ∧ α < π) (h2 : -π < β ∧ β < π)
    (hα : Turns ((S.vec p).map f) α ((S.chainVector chain).map f)) (hβ : Turns ((S.vec q).map f) β ((-S.chainVector chain).map f))
    (ht : TurnedInto S θ p α e) (ht' : TurnedInto S θ q β t) :
    ∃ N, ∀ fuel ≥ N, Saddle.inPlanes A dbg fuel S p q chain = some (.ok ⟨e, t, chain⟩) := by
  obtain ⟨N, hN⟩ := plane_sector hf A h hθ hp h1 hα ht
  obtain ⟨M, hM⟩ := plane_sector hf A h hθ hq h2 hβ ht'
  refine ⟨max N M, fun fuel hfuel => ?_⟩
  unfold Saddle.inPlanes
  dsimp only
  refine andThen_ok.2 ⟨e, hN fuel (le_of_max_le_left hfuel), ?_⟩
  refine andThen_ok.2 ⟨t, hM fuel (le_of_max_le_right hfuel), ?_⟩
  unfold Saddle.make
  rw [if_neg]
  intro hc
  rw [Bool.and_eq_true, List.all_eq_true] at hc
  refine h0 ?_
  rw [← S.chainVector_zero]
  exact S.chainVector_congr fun i hi => by simpa using hc.2 i (List.mem_range.2 hi)

/-- The saddle connection that is made from a chain starts and ends in the first sectors one gets to by turning counterclockwise from the
given half edges. -/
theorem counterclockwiseChain_sectors {f : T →+* ℝ} (hf : StrictMono f) (A : Option (Approx T K)) {debug : Bool} {S : FlatTri T}
    (h : Closed debug S) {θ : HE → ℝ} (hθ : AllCorners f S θ) (dbg : Bool) {p q e t : HE} (hp : p < S.tri.size) (hq : q < S.tri.size)
    {chain : ℕ → ℤ} (h0 : S.chainVector chain ≠ 0) {α β : ℝ} (h1 : 0 ≤ α ∧ α < 2 * π) (h2 : 0 ≤ β ∧ β < 2 * π)
    (hα : Turns ((S.vec p).map f) α ((S.chainVector chain).map f)) (hβ : Turns ((S.vec q).map f) β ((-S.chainVector chain).map f))
    (ht : TurnedInto S θ p α e) (ht' : TurnedInto S θ q β t) :
    ∃ N, ∀ fuel ≥ N, Saddle.counterclockwiseChain A dbg fuel S p q chain = some (.ok ⟨e, t, chain⟩) := by
  have key : ∀ {p e : HE} {v : Vec T} {α : ℝ}, p < S.tri.size → v ≠ 0 → 0 ≤ α ∧ α < 2 * π → Turns ((S.vec p).map f) α (v.map f) →
      TurnedInto S θ p α e → ∃ N, ∀ fuel ≥ N, S.sector A fuel p .counterclockwise v false = some (.ok e) := by
    intro p e v α hp hv h1 hα ht
    obtain ⟨V, hV, hpV⟩ := exists_vertex h hp
    have hb : ∀ e ∈ V, S.tri.boundary e = false := fun e he => (nonboundary h hV e he).2
    have hc := (around hf h hθ hV).1
    obtain ⟨e', N, k1, -, k2⟩ := C21.sector_counterclockwise hf A h.reachable h.flat hV hb hc hpV hv false
    rw [C21.turnedInto_unique hf h.reachable h.flat hV hb hc hpV (k2 α ⟨hα, h1⟩) ht] at k1
    exact ⟨N, k1⟩
  obtain ⟨N, hN⟩ := key hp h0 h1 hα ht
  obtain ⟨M, hM⟩ := key hq (neg_ne_zero.2 h0) h2 hβ ht'
  refine ⟨max N M, fun fuel hfuel => ?_⟩
  unfold Saddle.counterclockwiseChain
  dsimp only
  refine andThen_ok.2 ⟨e, hN fuel (le_of_max_le_left hfuel), ?_⟩
  refine andThen_ok.2 ⟨t, hM fuel (le_of_max_le_right hfuel), ?_⟩
  unfold Saddle.make
  rw [if_neg]
  intro hc
  rw [Bool.and_eq_true, List.all_eq_true] at hc
  refine h0 ?_
  rw [← S.chainVector_zero]
  exact S.chainVector_congr fun i hi => by simpa using hc.2 i (List.mem_range.2 hi)

/-! ### Examples -/

theorem ell_corner {θ : HE → ℝ} (hθ : AllCorners (Int.castRingHom ℝ) flatEll θ) {e e' : HE} (he : e < 18)
    (hn : flatEll.tri.nextAtVertex e = e') : (0 < θ e ∧ θ e < π) ∧
    Turns ((flatEll.vec e).map (Int.castRingHom ℝ)) (θ e) ((flatEll.vec e').map (Int.castRingHom ℝ)) ∧
    TurnedInto flatEll θ e (θ e) e' ∧ TurnedInto flatEll θ e' (-θ e) e := by
  subst hn
  obtain ⟨hc, ha⟩ := around Int.cast_strictMono flatEll_closed hθ C21.ell_vertex.1
  have hm : e ∈ Finset.range 18 := Finset.mem_range.2 he
  have h1 := ha.pos hm
  have h2 := ha.pos (ha.next_mem hm)
  refine ⟨h1, (hc e hm).2.2, ⟨e, 0, 1, rfl, rfl, ?_, ?_⟩, ⟨e, 1, 0, rfl, rfl, ?_, ?_⟩⟩
  · rw [arc_zero, arc_one]; linarith
  · rw [arc_zero, arc_succ, arc_one, iterate_one]; linarith
  · rw [arc_zero, arc_one]; linarith
  · rw [arc_one]; linarith

/-- In the L, the angle from a horizontal side to a diagonal is less than a quarter turn. -/
theorem ell_acute {θ : HE → ℝ} (hθ : AllCorners (Int.castRingHom ℝ) flatEll θ) : θ 0 < π / 2 := by
  obtain ⟨h1, h2, -⟩ := ell_corner hθ (e := 0) (e' := 12) (by decide) (by decide +kernel)
  by_contra hc
  have h0 : ((flatEll.vec 0).map (Int.castRingHom ℝ)) ≠ 0 := map_ne_zero _ Int.cast_strictMono (by decide +kernel)
  obtain ⟨r, hr, e1⟩ := h2
  have := dot_rotate ((flatEll.vec 0).map (Int.castRingHom ℝ)) 0 (θ 0) 1 r
  rw [rotate_zero, one_smul, one_mul, sub_zero, ← e1, dot_map, show dot (flatEll.vec 0) (flatEll.vec 12) = 1 by decide +kernel, map_one] at this
  have h3 := mul_pos hr (dot_self_pos h0)
  have h4 : cos (θ 0) ≤ 0 := cos_nonpos_of_pi_div_two_le_of_le (not_lt.1 hc) (by linarith [pi_pos])
  nlinarith

/-- The hypotheses hold for half edges of the L. -/
example : ∃ θ, AllCorners (Int.castRingHom ℝ) flatEll θ ∧ ∃ N, ∀ fuel ≥ N,
    (∃ c, Saddle.inPlane (none : Option (Approx ℤ ℚ)) true Bound.upperInt fuel flatEll 12 ⟨1, 0⟩ = some (.ok c) ∧ c.source = 0 ∧
      flatEll.saddleVector c = ⟨1, 0⟩ ∧ c.target = 1) ∧
    (∃ c, Saddle.inPlaneDirection (none : Option (Approx ℤ ℚ)) true (C41.sortInt flatEll) Bound.upperInt fuel flatEll 12 ⟨1, 0⟩ = some (.ok c) ∧
      c.source = 0 ∧ flatEll.saddleVector c = ⟨1, 0⟩ ∧ c.target = 1) ∧
    (∃ c, Saddle.alongVertical (none : Option (Approx ℤ ℚ)) true (C41.sortInt flatEll) Bound.upperInt fuel flatEll ⟨1, 0⟩ 12 = some (.ok c) ∧
      c.source = 0 ∧ flatEll.saddleVector c = ⟨1, 0⟩ ∧ c.target = 1) ∧
    (∃ c, Saddle.inHalfPlane (none : Option (Approx ℤ ℚ)) true Bound.upperInt fuel flatEll 12 ⟨1, 1⟩ ⟨1, 0⟩ = some (.ok c) ∧ c.source = 0 ∧
      flatEll.saddleVector c = ⟨1, 0⟩ ∧ c.target = 1) ∧
    (∃ c, Saddle.counterclockwise (none : Option (Approx ℤ ℚ)) true (C41.sortInt flatEll) Bound.upperInt fuel flatEll (.ofHalfEdge 0) ⟨1, 1⟩ =
      some (.ok c) ∧ c.source = 12 ∧ flatEll.saddleVector c = ⟨1, 1⟩ ∧ c.target = 13) ∧
    Saddle.inPlanes (none : Option (Approx ℤ ℚ)) true fuel flatEll 12 17 (Saddle.ofHalfEdge 0).chain = some (.ok (.ofHalfEdge 0)) ∧
    Saddle.counterclockwiseChain (none : Option (Approx ℤ ℚ)) true fuel flatEll 11 8 (Saddle.ofHalfEdge 0).chain =
      some (.ok (.ofHalfEdge 0)) := by
  have hf : StrictMono (Int.castRingHom ℝ) := Int.cast_strictMono
  have hpi := pi_pos
  obtain ⟨θ, hθ⟩ := C39.corners_exist hf flatEll_closed
  obtain ⟨p1, p2, p3⟩ := ell_corner hθ (e := 0) (e' := 12) (by decide) (by decide +kernel)
  obtain ⟨q1, q2, q3⟩ := ell_corner hθ (e := 1) (e' := 17) (by decide) (by decide +kernel)
  obtain ⟨r1, r2, r3⟩ := ell_corner hθ (e := 11) (e' := 0) (by decide) (by decide +kernel)
  obtain ⟨s1, s2, s3⟩ := ell_corner hθ (e := 8) (e' := 1) (by decide) (by decide +kernel)
  obtain ⟨t1, -⟩ := ell_corner hθ (e := 12) (e' := 6) (by decide) (by decide +kernel)
  have ha := ell_acute hθ
  have c0 : IsSaddleConnection flatEll 0 ⟨1, 0⟩ 1 := .halfEdge (by decide +kernel) (by decide +kernel)
  have c1 : IsSaddleConnection flatEll 12 ⟨1, 1⟩ 13 := .halfEdge (by decide +kernel) (by decide +kernel)
  have hup : ∀ v : Vec ℤ, dot v v ≤ ((Bound.upperInt v).square : ℤ) := fun v => le_rfl
  have hsort := C41.sortInt_spec flatEll
  have hvec : flatEll.chainVector (Saddle.ofHalfEdge 0).chain = flatEll.vec 0 := by decide +kernel
  have hneg : -flatEll.chainVector (Saddle.ofHalfEdge 0).chain = flatEll.vec 1 := by decide +kernel
  have hnz : flatEll.chainVector (Saddle.ofHalfEdge 0).chain ≠ 0 := by decide +kernel
  have hsame : SameDirection (⟨1, 0⟩ : Vec ℤ) ⟨1, 0⟩ := ⟨by decide, by decide⟩
  obtain ⟨N1, h1⟩ := inPlane_finds hf (none : Option (Approx ℤ ℚ)) flatEll_closed hθ hup (plane := 12) (α := -θ 0) (by decide) (by decide) c0
    ⟨by linarith, by linarith⟩ p2.symm p3.2
  obtain ⟨N2, h2⟩ := inPlaneDirection_finds hf (none : Option (Approx ℤ ℚ)) flatEll_closed hθ hsort hup (plane := 12) (α := -θ 0) (by decide)
    (by decide) c0 hsame ⟨by linarith, by linarith⟩ p2.symm p3.2
  obtain ⟨N3, h3⟩ := alongVertical_finds hf (none : Option (Approx ℤ ℚ)) flatEll_closed hθ hsort hup (plane := 12) (α := -θ 0) (by decide)
    (by decide) c0 hsame ⟨by linarith, by linarith⟩ p2.symm p3.2
  obtain ⟨N4, h4⟩ := inHalfPlane_finds hf (none : Option (Approx ℤ ℚ)) flatEll_closed hθ hup (side := 12) (vertical := ⟨1, 1⟩) (p := 0)
    (q := -θ 0) (by decide) (by decide) (by decide) c0 ⟨by linarith, by linarith⟩ ⟨by linarith, by linarith⟩ (turns_self _) p2.symm
    (by rw [sub_zero]; exact p3.2)
  obtain ⟨N5, h5⟩ := counterclockwise_finds hf (none : Option (Approx ℤ ℚ)) flatEll_closed hθ hsort hup (a := .ofHalfEdge 0) (v := ⟨1, 1⟩)
    (σ := 0) (τ := 0) (α := θ 0) ⟨by decide, .halfEdge (by decide +kernel) (by decide +kernel)⟩ (by decide) c1 ⟨by decide, by decide⟩
    ⟨le_rfl, p1.1, turns_self _⟩ ⟨le_rfl, t1.1, turns_self _⟩ (by linarith) ⟨p1.1.le, 1, by decide +kernel, by rw [arc_one]; simp [Saddle.ofHalfEdge]⟩
  obtain ⟨N6, h6⟩ := inPlanes_sectors hf (none : Option (Approx ℤ ℚ)) flatEll_closed hθ true (p := 12) (q := 17) (by decide) (by decide) hnz
    (α := -θ 0) (β := -θ 1) ⟨by linarith, by linarith⟩ ⟨by linarith, by linarith⟩ (by rw [hvec]; exact p2.symm) (by rw [hneg]; exact q2.symm)
    p3.2 q3.2
  obtain ⟨N7, h7⟩ := counterclockwiseChain_sectors hf (none : Option (Approx ℤ ℚ)) flatEll_closed hθ true (p := 11) (q := 8) (by decide)
    (by decide) hnz (α := θ 11) (β := θ 8) ⟨r1.1.le, by linarith⟩ ⟨s1.1.le, by linarith⟩ (by rw [hvec]; exact r2) (by rw [hneg]; exact s2)
    r3.1 s3.1
  exact ⟨θ, hθ, N1 + N2 + N3 + N4 + N5 + N6 + N7, fun fuel hfuel => ⟨h1 fuel (by omega), h2 fuel (by omega), h3 fuel (by omega),
    h4 fuel (by omega), h5 fuel (by omega), h6 fuel (by omega), h7 fuel (by omega)⟩⟩

end Verif.C146

namespace Verif.C147

open Verif Spec Tri FlatTri Examples Vec Real Tighten Function C140 C141 ByLength

variable {T : Type} [CommRing T] [LinearOrder T] [IsStrictOrderedRing T]
variable {K : Type} [Field K] [LinearOrder K] [IsStrictOrderedRing K]

/-- The first saddle connection clockwise from a saddle connection, exclusive, with some vector is found if the vector is not in the
interior of the sector where the saddle connection starts or if it is clockwise from the saddle connection. -/
theorem clockwise_partial {f : T →+* ℝ} (hf : StrictMono f) (A : Option (Approx T K)) {dbg : Bool} {S : FlatTri T} (h : Closed dbg S)
    {θ : HE → ℝ} (hθ : AllCorners f S θ) {upper : Vec T → Bound} (hup : ∀ v, dot v v ≤ ((upper v).square : T)) {a : Saddle} {e : HE}
    (ha : a.source < S.tri.size ∧ IsSaddleConnection S a.source (S.saddleVector a) a.target) (he : e < S.tri.size) {v : Vec T} {t : HE}
    (hs : IsSaddleConnection S e v t) {σ α : ℝ} (hσ : InCorner f S θ a.source σ (S.saddleVector a))
    (h1 : FirstTurn ((S.saddleVector a).map f) .clockwise (v.map f) true α) (ht : TurnedInto S θ a.source (σ + α) e)
    (hex : S.inSector A a.source v = true → cross (S.saddleVector a) v < 0 ∨ cross (S.vec a.source) v = 0) :
    ∃ N, ∀ fuel ≥ N, ∃ c, Saddle.clockwise A dbg upper fuel S a v = some (.ok c) ∧ c.source = e ∧ S.saddleVector c = v ∧ c.target = t := by
  refine C146.then_vector hf A h hup he hs ?_
  obtain ⟨V, hV, haV⟩ := exists_vertex h ha.1
  have hb : ∀ e ∈ V, S.tri.boundary e = false := fun e he => (nonboundary h hV e he).2
  obtain ⟨hc, hA⟩ := around hf h hθ hV
  have hin := C136.sector_of_connection hf A h ha.1 ha.2 (v := S.saddleVector a) ⟨by unfold cross; ring, saddle_pos h.shut hf hθ ha.2 ha.1⟩
  have hv0 : v ≠ 0 := by
    rintro rfl
    have := saddle_pos h.shut hf hθ hs he
    simp [dot] at this
  obtain ⟨e', N, k1, -, k2⟩ := C21.sectorFrom_clockwise_partial hf A h.reachable h.flat hV hb hc haV hin hv0 true
    (.inl fun hi => (hex hi).imp id .inr)
  have hpos := hA.pos haV
  have k3 := k2 σ hσ.1 (by linarith [hσ.2.1, pi_pos]) hσ.2.2 α h1
  rw [C21.turnedInto_unique hf h.reachable h.flat hV hb hc haV k3 ht] at k1
  exact ⟨N, k1⟩

/-- The first saddle connection clockwise from a saddle connection, exclusive, with some vector is found. -/
def ClockwiseClaim : Prop :=
  ∀ (f : ℤ →+* ℝ), StrictMono f → ∀ (dbg : Bool) (S : FlatTri ℤ), Closed dbg S → ∀ θ, AllCorners f S θ → ∀ upper : Vec ℤ → Bound,
    (∀ v, dot v v ≤ ((upper v).square : ℤ)) → ∀ (a : Saddle) (e : HE),
    a.source < S.tri.size ∧ IsSaddleConnection S a.source (S.saddleVector a) a.target → e < S.tri.size → ∀ (v : Vec ℤ) (t : HE),
    IsSaddleConnection S e v t → ∀ σ α : ℝ, InCorner f S θ a.source σ (S.saddleVector a) →
    FirstTurn ((S.saddleVector a).map f) .clockwise (v.map f) true α → TurnedInto S θ a.source (σ + α) e →
    ∃ N, ∀ fuel ≥ N, ∃ c, Saddle.clockwise (none : Option (Approx ℤ ℚ)) dbg upper fuel S a v = some (.ok c) ∧ c.source = e ∧
      S.saddleVector c = v ∧ c.target = t

/-- A saddle connection in the L. -/
def across : Saddle := ⟨0, 3, fun i => if i = 0 ∨ i = 7 then 1 else 0⟩

theorem across_connection : flatEll.saddleVector across = ⟨2, 1⟩ ∧ IsSaddleConnection flatEll 0 ⟨2, 1⟩ 3 ∧
    IsSaddleConnection flatEll 2 ⟨2, 1⟩ 5 := by
  have key : ∀ {v : Vec ℤ} {x t : HE} {q : Vec ℤ}, v = apex flatEll x q →
      t = flatEll.tri.nextInFace (flatEll.tri.nextInFace (neg x)) → Hits flatEll v x q t := by
    rintro v x t q h rfl
    exact .here h
  exact ⟨by decide +kernel, .crossing (by decide) (by decide) (key (by decide) (by decide)),
    .crossing (by decide) (by decide) (key (by decide) (by decide))⟩

/-- When the vertex has more than a full turn, the search for the saddle connection that is one full turn clockwise from a saddle
connection returns that saddle connection itself. -/
theorem clockwise_fails : ¬ ClockwiseClaim := by
  intro claim
  have hf : StrictMono (Int.castRingHom ℝ) := Int.cast_strictMono
  obtain ⟨θ, hθ⟩ := C39.corners_exist hf flatEll_closed
  obtain ⟨hc, ha⟩ := around hf flatEll_closed hθ C21.ell_vertex.1
  have h0mem : (0 : HE) ∈ Finset.range 18 := by decide
  have hv : (⟨2, 1⟩ : Vec ℤ) ≠ 0 := by decide
  obtain ⟨ρ, d⟩ := ha.exists_dir hv
  obtain ⟨d0, d1, d2⟩ := d 0 h0mem
  obtain ⟨g1, -⟩ := C21.ell_turn hf hc d0 d1 d2
  obtain ⟨a1, a2, a3⟩ := across_connection
  have hin : flatEll.inSector (none : Option (Approx ℤ ℚ)) 0 ⟨2, 1⟩ = true := by decide +kernel
  have hlast := ha.last (none : Option (Approx ℤ ℚ)) d h0mem (n := 5) (by decide +kernel) (by decide +kernel)
  rw [show flatEll.tri.previousAtVertex^[5 + 1] 0 = 2 by decide +kernel] at hlast
  obtain ⟨N, hN⟩ := claim _ hf true flatEll flatEll_closed θ hθ Bound.upperInt (fun v => le_rfl) across 2 ⟨by decide, by rw [a1]; exact a2⟩
    (by decide) ⟨2, 1⟩ 5 a3 (ρ 0) (-(2 * π))
    (by rw [a1]; exact ⟨d0, (ha.inSector_iff_lt (none : Option (Approx ℤ ℚ)) d h0mem).1 hin, d2⟩)
    (by
      rw [a1]
      refine ⟨?_, ?_⟩
      · rw [← Turns.period, neg_add_cancel]
        exact turns_self _
      · simp only
        exact ⟨le_rfl, by linarith [pi_pos]⟩) hlast
  obtain ⟨n, M, m1, m2, m3⟩ := ha.sector_cw (none : Option (Approx ℤ ℚ)) d hv h0mem true
  rw [if_neg (fun hc => g1.ne' hc.1)] at m1 m2 m3
  have hn : n = 0 := by
    rcases Nat.eq_zero_or_pos n with hn | hn
    · exact hn
    · exact absurd (m1 0 hn) (by decide +kernel)
  subst hn
  have hcode : ∀ fuel, flatEll.sectorFrom (none : Option (Approx ℤ ℚ)) fuel 0 ⟨2, 1⟩ .clockwise ⟨2, 1⟩ true =
      flatEll.sector (none : Option (Approx ℤ ℚ)) fuel 0 .clockwise ⟨2, 1⟩ true := by
    intro fuel
    have i2 : Vec.ccw (none : Option (Approx ℤ ℚ)) ⟨2, 1⟩ ⟨2, 1⟩ = .collinear := by decide +kernel
    unfold sectorFrom
    rw [if_neg (by decide), hin, i2]
    rfl
  obtain ⟨L, hL⟩ := C136.inSector_finds hf (none : Option (Approx ℤ ℚ)) flatEll_closed (upper := Bound.upperInt) (by decide) (fun v => le_rfl) a2
  obtain ⟨c, c1, c2, -⟩ := hN (max N (max M L)) (le_max_left _ _)
  obtain ⟨c', c1', c2', -⟩ := hL (max N (max M L)) ((le_max_right _ _).trans (le_max_right _ _))
  unfold Saddle.clockwise at c1
  rw [a1, show across.source = 0 from rfl, hcode, m3 _ ((le_max_left _ _).trans (le_max_right _ _))] at c1
  have : some (Except.ok c') = some (Except.ok c) := c1'.symm.trans c1
  injection this with this
  injection this with this
  subst this
  rw [c2'] at c2
  cases c2

/-- The hypotheses of the partial theorem hold when turning clockwise to an adjacent half edge of the L. -/
example : ∃ θ, AllCorners (Int.castRingHom ℝ) flatEll θ ∧ ∃ N, ∀ fuel ≥ N, ∃ c,
    Saddle.clockwise (none : Option (Approx ℤ ℚ)) true Bound.upperInt fuel flatEll (.ofHalfEdge 12) ⟨1, 0⟩ = some (.ok c) ∧ c.source = 0 ∧
      flatEll.saddleVector c = ⟨1, 0⟩ ∧ c.target = 1 := by
  have hf : StrictMono (Int.castRingHom ℝ) := Int.cast_strictMono
  obtain ⟨θ, hθ⟩ := C39.corners_exist hf flatEll_closed
  obtain ⟨p1, p2, p3⟩ := C146.ell_corner hθ (e := 0) (e' := 12) (by decide) (by decide +kernel)
  obtain ⟨q1, q2, -⟩ := C146.ell_corner hθ (e := 12) (e' := 6) (by decide) (by decide +kernel)
  have hpi := pi_pos
  exact ⟨θ, hθ, clockwise_partial hf (none : Option (Approx ℤ ℚ)) flatEll_closed hθ (fun v => le_rfl)
    ⟨by decide, .halfEdge (by decide +kernel) (by decide +kernel)⟩ (by decide) (.halfEdge (by decide +kernel) (by decide +kernel))
    (σ := 0) (α := -θ 0) ⟨le_rfl, q1.1, turns_self _⟩ ⟨p2.symm, by simp only; exact ⟨by linarith [p1.2], by linarith [p1.1]⟩⟩
    (by rw [zero_add]; exact p3.2) (fun h => absurd h (by decide +kernel))⟩

end Verif.C147
