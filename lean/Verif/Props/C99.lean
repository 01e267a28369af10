import Verif.Props.C53

/-!
# C99: Every saddle connection can be sampled
-/

namespace Verif.C99

open Verif Spec Tri FlatTri Examples Vec Real SaddleConnections SaddleSearch SaddleSample

variable {T : Type} [CommRing T] [LinearOrder T] [IsStrictOrderedRing T]
variable {K : Type} [Field K] [LinearOrder K] [IsStrictOrderedRing K]

/-- For each saddle connection that is admitted by all the restrictions, there are random choices such that it is reported.
(Missing: the saddle connections that are half edges of the triangulation, see `half_edges_never`.) -/
theorem sampled_partial {f : T →+* ℝ} (hf : StrictMono f) (A : Option (Approx T K)) {dbg : Bool} {S : FlatTri T}
    (h : Closed dbg S) {θ : HE → ℝ} (hθ : AllCorners f S θ) {fs : List (Restriction T)} (hv : ∀ g ∈ fs, ValidRestriction f S θ g)
    {e t : HE} {v : Vec T} (he : e < S.tri.size) (hc : IsSaddleConnection S e v t) (hne : v ≠ S.vec e) (hs : ∀ g ∈ fs, InSource e g)
    (ha : ∀ g ∈ fs, Admits f S θ (e, v) g) :
    ∃ N, ∀ fuel ≥ N, ∃ st, run A false S fuel (SaddleConnections.make S) fs = some (.ok st) ∧
      ∀ debug : Bool, ∃ l L M, (∀ ω ∈ l, ∀ i, (ω.side i).isSome) ∧ (∀ fuel ≥ M, sample A debug S st fuel l = some (.ok L)) ∧
        ∃ c ∈ L, c.source = e ∧ S.saddleVector c = v := by
  obtain ⟨N, hN⟩ := C39.filters_intersect hf A h hθ hv
  refine ⟨N, fun fuel hfuel => ?_⟩
  obtain ⟨st, h1, h2⟩ := hN fuel hfuel
  obtain ⟨k1, k2⟩ := Entire.run h.shut (fun v hv x hx y => by
    obtain ⟨z, -, hz⟩ := h.shut.flat.ver.orbit v hv
    have hzx := (hz x).1 hx
    exact ⟨fun k => (hzx.symm h.shut.flat.coh.hv).trans ((hz y).1 k), fun k => (hz y).2 (hzx.trans k)⟩) A he fs hs hv entire_make
    (List.mem_map.2 ⟨e, mem_halfEdges.2 he, rfl⟩) h1
  refine ⟨st, h1, fun debug => ?_⟩
  have hlong := (((h2 (e, v) (isDirection h.shut (cor h.shut hf hθ) he hc)).1).2 ha).2.2
  rcases hc with ⟨c1, -⟩ | ⟨c1, c2, c3⟩
  · exact absurd c1 hne
  · obtain ⟨l, L, M, l1, l2, l3⟩ := more_toward A (debug := debug) h k1 k2 c1 c2 c3 hlong
    exact ⟨l, L, M, l1, fun fuel hf => by rw [sample_eq A (List.ne_nil_of_mem k2)]; exact l2 fuel hf, l3⟩

/-- The hypotheses can be met by a long saddle connection on a torus. -/
example : ∃ θ : HE → ℝ, AllCorners (Int.castRingHom ℝ) flatTorus θ ∧
    (∀ g ∈ ([.halfEdge 0, .lowerBound (.ofInt 3)] : List (Restriction ℤ)), ValidRestriction (Int.castRingHom ℝ) flatTorus θ g) ∧
    Closed true flatTorus ∧ 0 < flatTorus.tri.size ∧ IsSaddleConnection flatTorus 0 ⟨3, 2⟩ 1 ∧ (⟨3, 2⟩ : Vec ℤ) ≠ flatTorus.vec 0 ∧
      (∀ g ∈ ([.halfEdge 0, .lowerBound (.ofInt 3)] : List (Restriction ℤ)), InSource 0 g) ∧
      ∀ g ∈ ([.halfEdge 0, .lowerBound (.ofInt 3)] : List (Restriction ℤ)), Admits (Int.castRingHom ℝ) flatTorus θ (0, ⟨3, 2⟩) g := by
  obtain ⟨θ, hθ⟩ := C39.corners_exist (f := Int.castRingHom ℝ) Int.cast_strictMono C30.flatTorus_closed
  have key : ∀ {v : Vec ℤ} {x t : HE} {q : Vec ℤ}, v = apex flatTorus x q →
      t = flatTorus.tri.nextInFace (flatTorus.tri.nextInFace (neg x)) → Hits flatTorus v x q t := by
    rintro v x t q h rfl
    exact .here h
  refine ⟨θ, hθ, fun g hg => ?_, C30.flatTorus_closed, by decide,
    .crossing (by decide) (by decide) (.left (by decide) (.right (by decide) (key (by decide) (by decide)))), by decide, fun g hg => ?_, fun g hg => ?_⟩
  · fin_cases hg
    · trivial
    · show (0 : ℤ) ≤ _
      decide
  · fin_cases hg
    · rfl
    · trivial
  · fin_cases hg
    · rfl
    · show _ < dot (⟨3, 2⟩ : Vec ℤ) ⟨3, 2⟩
      decide

/-- The half edges are saddle connections. They are never reported, no matter what random choices are made. -/
theorem half_edges_never {f : T →+* ℝ} (hf : StrictMono f) (A : Option (Approx T K)) {dbg : Bool} {S : FlatTri T} (h : Closed dbg S) (hpos : 0 < S.tri.size) :
    (∀ e < S.tri.size, ∃ t, IsSaddleConnection S e (S.vec e) t) ∧
    ∀ (debug : Bool) (l : List Choices), (∀ ω ∈ l, ∀ i, (ω.side i).isSome) →
      ∃ L M, (∀ fuel ≥ M, sample A debug S (SaddleConnections.make S) fuel l = some (.ok L)) ∧ L.length = l.length ∧ ∀ c ∈ L, S.saddleVector c ≠ S.vec c.source := by
  refine ⟨fun e _ => ⟨_, .halfEdge rfl rfl⟩, fun debug l hl => ?_⟩
  have hne : (SaddleConnections.make S).sectors ≠ [] := List.ne_nil_of_mem (List.mem_map.2 ⟨0, mem_halfEdges.2 hpos, rfl⟩)
  obtain ⟨L, M, l1, l2, l3, l4, -⟩ := more_spec hf A (debug := debug) h entire_make hne l (seen := []) (by simp) hl
  refine ⟨L, M, fun fuel hf => by rw [sample_eq A hne]; exact l1 fuel hf, l2, fun c hc k => ?_⟩
  have := (l3 c hc).2.1.left
  rw [k, cross_self] at this
  exact lt_irrefl _ this

/-- The hypotheses can be met by a torus. -/
example : Closed true flatTorus ∧ 0 < flatTorus.tri.size := ⟨C30.flatTorus_closed, by decide⟩

end Verif.C99
