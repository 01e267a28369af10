import Verif.Lemmas.SaddleEnumerate
import Verif.Props.C39

/-!
# C40: The saddle connection search is sound and loses nothing
-/

namespace Verif.C40

open Verif Spec Tri FlatTri Examples Vec Real SaddleConnections SaddleSearch

variable {T : Type} [CommRing T] [LinearOrder T] [IsStrictOrderedRing T]
variable {K : Type} [Field K] [LinearOrder K] [IsStrictOrderedRing K]

/-- Iterating over the saddle connections of a closed surface, restricted by any calls among which there is a bound, comes
to an end without any error. Each saddle connection that is reported is one: developing the triangles along it, it hits its
first vertex where it should end. No saddle connection is reported twice. The saddle connections that are reported are
exactly those that are admitted by all the restrictions. -/
theorem search_exact {f : T →+* ℝ} (hf : StrictMono f) (A : Option (Approx T K)) {dbg : Bool} {S : FlatTri T}
    (h : Closed dbg S) {θ : HE → ℝ} (hθ : AllCorners f S θ) {fs : List (Restriction T)} (hv : ∀ g ∈ fs, ValidRestriction f S θ g)
    (hb : ∃ b, .bound b ∈ fs) :
    ∃ N, ∀ fuel ≥ N, ∃ st, run A false S fuel (make S) fs = some (.ok st) ∧
      ∀ debug, ∃ L M, (∀ fuel ≥ M, enumerate A debug S st fuel = some (.ok L)) ∧
        (∀ c ∈ L, IsSaddleConnection S c.source (S.saddleVector c) c.target) ∧
        (L.Pairwise fun c d => (c.source, S.saddleVector c) ≠ (d.source, S.saddleVector d)) ∧
        ∀ e v, (∃ c ∈ L, c.source = e ∧ S.saddleVector c = v) ↔
          e < S.tri.size ∧ (∃ t, IsSaddleConnection S e v t) ∧ ∀ g ∈ fs, Admits f S θ (e, v) g := by
  obtain ⟨N, hN⟩ := exists_fuel (S := S) fs
  obtain ⟨N', hN'⟩ := C39.filters_intersect hf A h hθ hv
  refine ⟨max N N', fun fuel hfuel => ?_⟩
  have hc := cor h.shut hf hθ
  obtain ⟨st, h1, h2, -⟩ := run_spec A h.shut hf hθ fs (hN fuel ((le_max_left _ _).trans hfuel)) hv
    (make_inv A hc fun e he => (hθ e (Finset.mem_range.2 he)).2.1)
  obtain ⟨st', h1', h3⟩ := hN' fuel ((le_max_right _ _).trans hfuel)
  rw [h1] at h1'
  injection h1' with h1'
  injection h1' with h1'
  subst h1'
  refine ⟨st, h1, fun debug => ?_⟩
  obtain ⟨L, M, e1, e2, e3, e4⟩ := enumerate_spec h.shut hf hθ A h2 (run_radius A fs h1 (.inr hb)) debug
  refine ⟨L, M, e1, e2, e3, fun e v => ?_⟩
  rw [e4]
  refine and_congr_right fun he => and_congr_right fun ⟨t, ht⟩ => ?_
  exact (h3 (e, v) (isDirection h.shut hc he ht)).1

/-- There is at most one saddle connection in each direction. -/
theorem direction_unique {S : FlatTri T} {e : HE} {v w : Vec T} {t u : HE} (hv : IsSaddleConnection S e v t) (hw : IsSaddleConnection S e w u) (hc : cross v w = 0) (hd : 0 < dot v w) :
    v = w ∧ t = u := by
  have key : ∀ {v w : Vec T}, cross v w = 0 → 0 < dot v w → 0 < cross (S.vec e) v → w ≠ S.vec e := by
    rintro v w hc hd hv rfl
    rw [cross_comm, hc, neg_zero] at hv
    exact lt_irrefl _ hv
  rcases hv with ⟨v1, v2⟩ | ⟨v1, v2, v3⟩
  · rcases hw with ⟨w1, w2⟩ | ⟨w1, w2, w3⟩
    · exact ⟨v1.trans w1.symm, v2.trans w2.symm⟩
    · exact absurd v1 (key (by rw [cross_comm, hc, neg_zero]) (by rw [dot_comm]; exact hd) w1)
  · rcases hw with ⟨w1, w2⟩ | ⟨w1, w2, w3⟩
    · exact absurd w1 (key hc hd v1)
    · exact v3.unique w3 hc hd

/-- The hypotheses can be met by a search in a sector of a torus that is bounded above and below. -/
example : ∃ (θ : HE → ℝ) (fs : List (Restriction ℤ)), AllCorners (Int.castRingHom ℝ) flatTorus θ ∧
    fs = [.vectors ⟨2, 1⟩ ⟨-1, 2⟩, .bound (.ofInt 5), .lowerBound (.ofInt 1)] ∧
    (∀ g ∈ fs, ValidRestriction (Int.castRingHom ℝ) flatTorus θ g) ∧ Closed true flatTorus ∧ ∃ b, .bound b ∈ fs := by
  obtain ⟨θ, hθ⟩ := C39.corners_exist (f := Int.castRingHom ℝ) Int.cast_strictMono C30.flatTorus_closed
  refine ⟨θ, _, hθ, rfl, fun g hg => ?_, C30.flatTorus_closed, .ofInt 5, by simp⟩
  fin_cases hg
  · exact ⟨by decide, by decide⟩
  · trivial
  · show (0 : ℤ) ≤ _
    decide

/-- This search reports some saddle connections. -/
example : ((enumerate (none : Option (Approx ℤ ℚ)) true flatTorus
    ⟨[⟨0, some (⟨2, 1⟩, ⟨1, 1⟩)⟩, ⟨4, none⟩, ⟨2, some (⟨0, 1⟩, ⟨-1, 2⟩)⟩], some (.ofInt 4), .ofInt 1⟩ 200).map fun r => r.toOption.map fun l =>
      l.map fun c => (c.source, flatTorus.saddleVector c)) =
    some (some [(0, ⟨2, 1⟩), (0, ⟨3, 2⟩), (4, ⟨1, 1⟩), (4, ⟨1, 2⟩), (4, ⟨2, 3⟩), (4, ⟨1, 3⟩), (2, ⟨-1, 3⟩)]) := by
  decide +kernel

/-- There is a saddle connection that crosses some edges of the torus. -/
example : IsSaddleConnection flatTorus 0 ⟨3, 2⟩ 1 := by
  have key : ∀ {v : Vec ℤ} {x t : HE} {q : Vec ℤ}, v = apex flatTorus x q →
      t = flatTorus.tri.nextInFace (flatTorus.tri.nextInFace (neg x)) → Hits flatTorus v x q t := by
    rintro v x t q h rfl
    exact .here h
  exact .crossing (by decide) (by decide) (.left (by decide) (.right (by decide) (key (by decide) (by decide))))

end Verif.C40
