import Verif.Lemmas.SaddlePath
import Verif.Lemmas.SaddleEnumerate
import Verif.Props.C40

/-!
# C93: The path of a saddle connection
-/

namespace Verif.C93

open Verif Spec Tri FlatTri Examples Vec SaddleSearch

variable {T : Type} [CommRing T] [LinearOrder T] [IsStrictOrderedRing T]
variable {K : Type} [Field K] [LinearOrder K] [IsStrictOrderedRing K]

/-- For any saddle connection of a closed surface, `path()` returns without any error. It reports exactly the half edges
that one crosses when developing the triangles along the saddle connection. The intersections are in the interior of these
half edges and they are in the order in which the saddle connection runs through them, strictly between its ends; the half
edges are crossed from left to right. -/
theorem path_exact {f : T →+* ℝ} (hf : StrictMono f) (A : Option (Approx T K)) {dbg : Bool} {S : FlatTri T} (h : Closed dbg S)
    (debug : Bool) {c : Saddle} (he : c.source < S.tri.size) (hc : IsSaddleConnection S c.source (S.saddleVector c) c.target) :
    ∃ l N, (∀ fuel ≥ N, saddlePath A debug S fuel c = some (.ok l)) ∧
      Crossings S c.source (S.saddleVector c) (l.map fun i => (i.halfEdge, -i.base)) ∧
      (∀ i ∈ l, i.surface = S ∧ i.direction = S.saddleVector c ∧ FromLeft i) ∧
      ∃ σ : List ℝ, List.Forall₂ (MeetsAt f) l σ ∧ σ.Pairwise (· < ·) ∧ ∀ s ∈ σ, 0 < s ∧ s < 1 := by
  have hS := h.shut
  obtain ⟨m, s1, s2, s3, s4⟩ := start_single (P := ⟨A, debug, S, none, .zero⟩) hS rfl rfl he
  obtain ⟨r1, r2⟩ := root hS he
  have hcourse : 0 ≤ cross (S.vec c.source) (S.saddleVector c) →
      0 < cross (S.saddleVector c) (S.vec c.source + S.vec (S.tri.nextInFace c.source)) → Course _ c.source m := fun a b => (s4 _ a b).toCourse
  have hd : dereference ⟨A, debug, S, none, .zero⟩ m = .ok (Saddle.ofHalfEdge c.source) := by
    have hne : S.vec c.source ≠ 0 := by intro k; rw [k] at r2; simp at r2
    unfold dereference
    simp only [s2, s3, bind, Except.bind, pure, Except.pure]
    rw [if_neg]
    rintro ⟨-, k | k⟩
    · exact absurd k (by decide)
    · apply k
      rw [gtBound_eq, saddleVector_ofHalfEdge hS he]
      simpa [Bound.zero] using dot_self_pos hne
  have hpath : ∀ (fuel : ℕ) (d : Saddle) (l : List ((ℕ → ℤ) × HE)), d.target = c.target →
      pathLoop ⟨A, debug, S, none, .zero⟩ c fuel fuel m = some (.ok (d, l)) →
      saddlePath A debug S fuel c = some (.ok (l.map fun i => HalfEdgeIntersection.make S (-S.chainVector i.1) i.2 (S.saddleVector c))) := by
    intro fuel d l h1 h2
    unfold saddlePath
    simp only [sector_halfEdge S he]
    have e1 : (SaddleConnections.sectorHalfEdge (SaddleConnections.make S) c.source).searchRadius = none := rfl
    have e2 : (SaddleConnections.sectorHalfEdge (SaddleConnections.make S) c.source).lowerBound = .zero := rfl
    rw [e1, e2, s1]
    simp only [Option.bind_some, h2, Option.map_some]
    simp [Except.bind, h1]
  rcases hc with ⟨v1, v2⟩ | ⟨v1, v2, v3⟩
  · refine ⟨[], 1, fun fuel hfuel => ?_, .halfEdge v1, by simp, [], .nil, by simp, by simp⟩
    obtain ⟨g, rfl⟩ : ∃ g, fuel = g + 1 := ⟨fuel - 1, by omega⟩
    exact hpath _ (Saddle.ofHalfEdge c.source) [] v2.symm
      (pathLoop_done hd ((saddleVector_ofHalfEdge hS he).trans v1.symm) rfl v2.symm)
  · obtain ⟨l, hl⟩ := v3.crosses
    have hA := s4 _ v1.le v2
    have hA' : Ahead (P := ⟨A, debug, S, none, .zero⟩) c.source True (S.saddleVector c) (S.tri.nextInFace c.source)
        (S.vec c.source + S.vec (S.tri.nextInFace c.source)) m :=
      { hA with left' := fun _ => hA.left' v1 }
    obtain ⟨d, l', d1, d2, N, hN⟩ := SaddleSearch.Spec.Crosses.follow (P := ⟨A, debug, S, none, .zero⟩) hS rfl rfl hl rfl m
      ⟨hA.toCourse, .inl hA'⟩
    have hlist : l'.map (fun i => HalfEdgeIntersection.make S (-S.chainVector i.1) i.2 (S.saddleVector c)) = l.map (meets S (S.saddleVector c)) := by
      rw [← d2, List.map_map]
      rfl
    have hp : S.vec c.source + S.vec (S.tri.nextInFace c.source) - S.vec (S.tri.nextInFace c.source) = S.vec c.source := by abel
    obtain ⟨g0, s, σ, g1, g2, g3, g4⟩ := crosses_meet hS hf hl (next_lt hS he) (by rw [hp]; exact v1) v2
    have hs : 0 < s := by
      obtain ⟨t, -, -, ht⟩ := meetsAt_cross g1 ((S.vec (S.tri.nextInFace c.source)).map f)
      have e0 : cross ((S.vec (S.tri.nextInFace c.source)).map f) ((S.vec (S.tri.nextInFace c.source)).map f) = 0 := cross_self _
      rw [e0, mul_zero, add_zero, hp, cross_map, cross_map] at ht
      have k1 : f (cross (S.vec (S.tri.nextInFace c.source)) (S.vec c.source)) < 0 := by
        rw [← map_zero f]
        apply hf
        have : cross (S.vec (S.tri.nextInFace c.source)) (S.vec c.source) = -cross (S.vec c.source) (S.vec c.source + S.vec (S.tri.nextInFace c.source)) := by
          simp only [cross, Vec.add_x, Vec.add_y]; ring
        rw [this]
        linarith
      have k2 : f (cross (S.vec (S.tri.nextInFace c.source)) (S.saddleVector c)) < 0 := by
        rw [← map_zero f]
        apply hf
        rw [cross_comm]
        linarith [hA.half]
      by_contra hn
      push Not at hn
      nlinarith
    refine ⟨l.map (meets S (S.saddleVector c)), N + 1, fun fuel hfuel => ?_, ?_, ?_, s :: σ, g2, g3, fun r hr => ⟨?_, g4 r hr⟩⟩
    · obtain ⟨g, rfl⟩ : ∃ g, fuel = g + 1 := ⟨fuel - 1, by omega⟩
      rw [← hlist]
      refine hpath _ d l' d1 ?_
      rw [pathLoop_skip (P := ⟨A, debug, S, none, .zero⟩) (w := .counterclockwise) (m' := m) hd ?_ ?_ (by decide) ?_]
      · exact hN _ (by omega) _ (by omega) _ (by omega)
      · change S.saddleVector (Saddle.ofHalfEdge c.source) ≠ S.saddleVector c
        rw [saddleVector_ofHalfEdge hS he]
        intro k
        rw [← k, cross_self] at v1
        exact lt_irrefl _ v1
      · change ccw A (S.saddleVector (Saddle.ofHalfEdge c.source)) (S.saddleVector c) = _
        rw [saddleVector_ofHalfEdge hS he, ccw_eq, ccwExact_ccw]
        exact v1
      · unfold skipSector CCW.neg
        simp only [s2]
        simp
    · have : (l.map (meets S (S.saddleVector c))).map (fun i => (i.halfEdge, -i.base)) = l := by
        rw [List.map_map]
        conv_rhs => rw [← List.map_id l]
        refine List.map_congr_left fun i _ => ?_
        unfold meets HalfEdgeIntersection.make
        simp
      rw [this]
      exact .crossing v1 v2 hl
    · intro i hi
      obtain ⟨j, hj, rfl⟩ := List.mem_map.1 hi
      refine ⟨rfl, rfl, ?_⟩
      have := g0 j hj
      unfold FromLeft meets HalfEdgeIntersection.make
      dsimp only
      rw [cross_comm]
      linarith
    · rcases List.mem_cons.1 hr with rfl | hr
      · exact hs
      · exact hs.trans ((List.pairwise_cons.1 g3).1 r hr)

/-- There is only one list of half edges that are crossed. -/
theorem crossings_unique {S : FlatTri T} {e : HE} {v : Vec T} {l l' : List (HE × Vec T)} (h : Crossings S e v l) (h' : Crossings S e v l') :
    l = l' := by
  have key : ∀ {x : HE} {q : Vec T} {t t' : HE} {l l' : List (HE × Vec T)}, Crosses S v x q t l → Crosses S v x q t' l' → l = l' := by
    intro x q t t' l l' h
    induction h generalizing t' l' with
    | here hv =>
      intro h'
      cases h' with
      | here => rfl
      | right h1 _ => rw [← hv, cross_self] at h1; exact absurd h1 (lt_irrefl _)
      | left h1 _ => rw [← hv, cross_self] at h1; exact absurd h1 (lt_irrefl _)
    | right hv _ ih =>
      intro h'
      cases h' with
      | here h1 => rw [← h1, cross_self] at hv; exact absurd hv (lt_irrefl _)
      | right _ h1 => rw [ih h1]
      | left h1 _ => exact absurd hv (not_lt.2 h1.le)
    | left hv _ ih =>
      intro h'
      cases h' with
      | here h1 => rw [← h1, cross_self] at hv; exact absurd hv (lt_irrefl _)
      | right h1 _ => exact absurd hv (not_lt.2 h1.le)
      | left _ h1 => rw [ih h1]
  cases h with
  | halfEdge hv =>
    cases h' with
    | halfEdge => rfl
    | crossing h1 _ _ => rw [hv, cross_self] at h1; exact absurd h1 (lt_irrefl _)
  | crossing h1 _ h2 =>
    cases h' with
    | halfEdge hv => rw [hv, cross_self] at h1; exact absurd h1 (lt_irrefl _)
    | crossing _ _ h3 => exact key h2 h3

/-- `crossings()` reports the half edges that are crossed. -/
theorem crossings_exact {f : T →+* ℝ} (hf : StrictMono f) (A : Option (Approx T K)) {dbg : Bool} {S : FlatTri T} (h : Closed dbg S)
    (debug : Bool) {c : Saddle} (he : c.source < S.tri.size) (hc : IsSaddleConnection S c.source (S.saddleVector c) c.target) :
    ∃ l N, (∀ fuel ≥ N, saddleCrossings A debug S fuel c = some (.ok l)) ∧
      ∃ L, Crossings S c.source (S.saddleVector c) L ∧ l = L.map Prod.fst := by
  obtain ⟨l, N, h1, h2, -⟩ := path_exact hf A h debug he hc
  refine ⟨l.map (·.halfEdge), N, fun fuel hfuel => ?_, _, h2, ?_⟩
  · unfold saddleCrossings
    rw [h1 fuel hfuel]
    rfl
  · rw [List.map_map]
    rfl

/-- A saddle connection of the torus that crosses some half edges. -/
def slope : Saddle := ⟨0, 1, fun i => if i = 0 then 1 else if i = 2 then 2 else 0⟩

/-- The hypotheses can be met by a saddle connection that crosses three half edges. -/
example : Closed true flatTorus ∧ slope.source < flatTorus.tri.size ∧
    IsSaddleConnection flatTorus slope.source (flatTorus.saddleVector slope) slope.target := by
  have key : ∀ {v : Vec ℤ} {x t : HE} {q : Vec ℤ}, v = apex flatTorus x q →
      t = flatTorus.tri.nextInFace (flatTorus.tri.nextInFace (neg x)) → Hits flatTorus v x q t := by
    rintro v x t q h rfl
    exact .here h
  have hv : flatTorus.saddleVector slope = ⟨3, 2⟩ := by decide +kernel
  refine ⟨C30.flatTorus_closed, by decide, ?_⟩
  rw [hv]
  exact .crossing (by decide) (by decide) (.left (by decide) (.right (by decide) (key (by decide) (by decide))))

/-- These half edges. -/
example : ((saddleCrossings (none : Option (Approx ℤ ℚ)) true flatTorus 30 slope).map (·.toOption)) = some (some [2, 1, 2]) := by
  decide +kernel

end Verif.C93
