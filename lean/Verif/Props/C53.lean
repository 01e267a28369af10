import Verif.Lemmas.SaddleSampled

/-!
# C53: Sampling saddle connections never repeats
-/

namespace Verif.C53

open Verif Spec Tri FlatTri Examples Vec Real SaddleConnections SaddleSearch SaddleSample

variable {T : Type} [CommRing T] [LinearOrder T] [IsStrictOrderedRing T]
variable {K : Type} [Field K] [LinearOrder K] [IsStrictOrderedRing K]

/-- When sampling the saddle connections in one or several corners of a surface without boundary, no matter what random choices
are made, each call returns without an error. What is reported are saddle connections that are admitted by all the restrictions.
No saddle connection is reported twice. -/
theorem never_repeats {f : T →+* ℝ} (hf : StrictMono f) (A : Option (Approx T K)) {dbg : Bool} {S : FlatTri T}
    (h : Closed dbg S) {θ : HE → ℝ} (hθ : AllCorners f S θ) {fs : List (Restriction T)} (hv : ∀ g ∈ fs, ValidRestriction f S θ g)
    {e : HE} (he : e < S.tri.size) (hs : ∀ g ∈ fs, InSource e g) :
    ∃ N, ∀ fuel ≥ N, ∃ st, run A false S fuel (SaddleConnections.make S) fs = some (.ok st) ∧
      ∀ (debug : Bool) (l : List Choices), (∀ ω ∈ l, ∀ i, (ω.side i).isSome) →
        ∃ L M, (∀ fuel ≥ M, sample A debug S st fuel l = some (.ok L)) ∧ L.length = l.length ∧
          (∀ c ∈ L, IsSaddleConnection S c.source (S.saddleVector c) c.target) ∧
          (L.Pairwise fun c d => (c.source, S.saddleVector c) ≠ (d.source, S.saddleVector d)) ∧
          ∀ c ∈ L, ∀ g ∈ fs, Admits f S θ (c.source, S.saddleVector c) g := by
  obtain ⟨N, hN⟩ := C39.filters_intersect hf A h hθ hv
  refine ⟨N, fun fuel hfuel => ?_⟩
  obtain ⟨st, h1, h2⟩ := hN fuel hfuel
  obtain ⟨k1, k2⟩ := Entire.run h.shut (fun v hv x hx y => by
    obtain ⟨z, -, hz⟩ := h.shut.flat.ver.orbit v hv
    have hzx := (hz x).1 hx
    exact ⟨fun k => (hzx.symm h.shut.flat.coh.hv).trans ((hz y).1 k), fun k => (hz y).2 (hzx.trans k)⟩) A he fs hs hv entire_make
    (List.mem_map.2 ⟨e, mem_halfEdges.2 he, rfl⟩) h1
  have hne : st.sectors ≠ [] := List.ne_nil_of_mem k2
  refine ⟨st, h1, fun debug l hl => ?_⟩
  obtain ⟨L, M, l1, l2, l3, l4, -⟩ := more_spec hf A (debug := debug) h k1 hne l (seen := []) (by simp) hl
  have hlt : ∀ c ∈ L, c.source < S.tri.size := by
    intro c hc
    obtain ⟨s, s1, s2⟩ := (l3 c hc).1
    exact s2 ▸ (k1.whole s s1).2
  refine ⟨L, M, fun fuel hf => by rw [sample_eq A hne]; exact l1 fuel hf, l2, fun c hc => (l3 c hc).2.1.isSaddle h.shut (hlt c hc), l4, fun c hc => ?_⟩
  have hd := isDirection h.shut (cor h.shut hf hθ) (hlt c hc) ((l3 c hc).2.1.isSaddle h.shut (hlt c hc))
  refine ((h2 _ hd).1.1 ⟨?_, ?_, (l3 c hc).2.2⟩)
  · obtain ⟨s, s1, s2⟩ := (l3 c hc).1
    refine ⟨s, s1, ?_⟩
    unfold contains
    rw [if_neg (by simpa using s2), (k1.whole s s1).1]
  · intro r hr
    rw [k1.unbounded] at hr
    cases hr

/-- The hypotheses can be met: sampling the saddle connections of a torus that start next to some half edge and that are not too
short. -/
example : ∃ (θ : HE → ℝ) (fs : List (Restriction ℤ)), AllCorners (Int.castRingHom ℝ) flatTorus θ ∧
    fs = [.source (Finset.range 6), .halfEdge 0, .lowerBound (.ofInt 3)] ∧
    (∀ g ∈ fs, ValidRestriction (Int.castRingHom ℝ) flatTorus θ g) ∧ Closed true flatTorus ∧ 0 < flatTorus.tri.size ∧ ∀ g ∈ fs, InSource 0 g := by
  obtain ⟨θ, hθ⟩ := C39.corners_exist (f := Int.castRingHom ℝ) Int.cast_strictMono C30.flatTorus_closed
  refine ⟨θ, _, hθ, rfl, fun g hg => ?_, C30.flatTorus_closed, by decide, fun g hg => ?_⟩
  · fin_cases hg
    · show Finset.range 6 ∈ _
      decide
    · trivial
    · show (0 : ℤ) ≤ _
      decide
  · fin_cases hg
    · show 0 ∈ Finset.range 6
      decide
    · rfl
    · trivial

/-- Some saddle connections that are sampled on a torus. -/
example : ((sample (none : Option (Approx ℤ ℚ)) true flatTorus (SaddleConnections.make flatTorus) 40
    [⟨0, fun _ => some true⟩, ⟨0, fun _ => some true⟩, ⟨0, fun _ => some false⟩, ⟨6, fun i => some (i % 2 = 0)⟩, ⟨1, fun _ => some true⟩]).map fun r => r.toOption.map fun l =>
      l.map fun c => (c.source, flatTorus.saddleVector c)) =
    some (some [(0, ⟨2, 1⟩), (0, ⟨3, 2⟩), (0, ⟨3, 1⟩), (0, ⟨5, 3⟩), (1, ⟨-2, -1⟩)]) := by
  decide +kernel

/-- A search with a bound cannot be sampled, which is reported as an error. -/
theorem bound_error (A : Option (Approx T K)) (debug : Bool) (S : FlatTri T) (st : State T) (b : Bound) (hne : st.sectors ≠ []) (fuel : ℕ) (ω : Choices) (l : List Choices) :
    sample A debug S (SaddleConnections.bound st b) fuel (ω :: l) = some (.error .logicError) := by
  have : (SaddleConnections.bound st b).sectors ≠ [] := hne
  rw [sample_eq A this, more]
  have : SaddleSample.increment A debug S (SaddleConnections.bound st b) fuel [] ω = some (.error .logicError) := by
    unfold SaddleSample.increment
    rw [if_pos (by rfl)]
  rw [this]
  rfl

/-- The hypotheses can be met by a search on a torus. -/
example : (SaddleConnections.make flatTorus).sectors ≠ [] := by decide

end Verif.C53
