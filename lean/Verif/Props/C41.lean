import Verif.Lemmas.ByLength
import Verif.Props.C40
import Mathlib.Data.List.Sort

/-!
# C41: by-length enumeration is sorted and complete
-/

namespace Verif.C41

open Verif Spec Tri FlatTri Examples Vec Real SaddleConnections ByLength

variable {T : Type} [CommRing T] [LinearOrder T] [IsStrictOrderedRing T]
variable {K : Type} [Field K] [LinearOrder K] [IsStrictOrderedRing K]

/-- On a closed surface, if a search is bounded, then iterating `byLength()` comes to an end without any error. It reports
the same saddle connections as the search itself, the same number of times (that is, each of them once), in order of
non-decreasing length. This holds however `std::sort` orders saddle connections of the same length and however much
`Bound::upper` rounds up. -/
theorem same_connections_sorted {f : T →+* ℝ} (hf : StrictMono f) (A : Option (Approx T K)) {dbg : Bool} {S : FlatTri T}
    (h : Closed dbg S) (hne : 0 < S.tri.size) {θ : HE → ℝ} (hθ : AllCorners f S θ) {fs : List (Restriction T)}
    (hv : ∀ g ∈ fs, ValidRestriction f S θ g) (hb : ∃ b, .bound b ∈ fs) {sort : List Saddle → List Saddle} (hs : SortsByLength S A sort)
    {upper : Vec T → Bound} (hup : ∀ v, dot v v ≤ ((upper v).square : T)) :
    ∃ N, ∀ fuel ≥ N, ∃ st, run A false S fuel (make S) fs = some (.ok st) ∧
      ∀ debug, ∃ L L' M, (∀ fuel ≥ M, SaddleSearch.enumerate A debug S st fuel = some (.ok L)) ∧
        (∀ fuel ≥ M, ByLength.enumerate ⟨A, debug, S, st, sort, upper⟩ fuel = some (.ok L')) ∧
        (L'.Pairwise fun c d => dot (S.saddleVector c) (S.saddleVector c) ≤ dot (S.saddleVector d) (S.saddleVector d)) ∧
        (L'.map fun c => (c.source, S.saddleVector c, c.target)).Perm (L.map fun c => (c.source, S.saddleVector c, c.target)) ∧
        (L'.map fun c => (c.source, S.saddleVector c)).Nodup := by
  obtain ⟨N, hN⟩ := exists_fuel (S := S) fs
  refine ⟨N, fun fuel hfuel => ?_⟩
  have hc := cor h.shut hf hθ
  obtain ⟨st, h1, h2, -⟩ := run_spec A h.shut hf hθ fs (hN fuel hfuel) hv
    (make_inv A hc fun e he => (hθ e (Finset.mem_range.2 he)).2.1)
  refine ⟨st, h1, fun debug => ?_⟩
  have hr := SaddleSearch.run_radius A fs h1 (.inr hb)
  obtain ⟨L, M, e1, e2, e3, e4⟩ := SaddleSearch.enumerate_spec h.shut hf hθ A h2 hr debug
  obtain ⟨L', M', g1, g2⟩ := ByLength.enumerate_spec (P := ⟨A, debug, S, st, sort, upper⟩) h.shut hf hθ h2 hs hr hne hup
  have nd : ∀ {l : List Saddle}, (l.Pairwise fun c d => (c.source, S.saddleVector c) ≠ (d.source, S.saddleVector d)) →
      (l.map fun c => (c.source, S.saddleVector c, c.target)).Nodup := by
    intro l hl
    refine List.pairwise_map.2 (hl.imp fun k k' => k ?_)
    have e1 := congrArg Prod.fst k'
    have e2 := congrArg (fun x => x.2.1) k'
    exact Prod.ext e1 e2
  have sub : ∀ {l l' : List Saddle}, (∀ c ∈ l, IsSaddleConnection S c.source (S.saddleVector c) c.target) →
      (∀ c ∈ l', IsSaddleConnection S c.source (S.saddleVector c) c.target) →
      (∀ e v, (∃ c ∈ l, c.source = e ∧ S.saddleVector c = v) → e < S.tri.size ∧ ∃ c ∈ l', c.source = e ∧ S.saddleVector c = v) →
      ∀ a, a ∈ (l.map fun c => (c.source, S.saddleVector c, c.target)) → a ∈ (l'.map fun c => (c.source, S.saddleVector c, c.target)) := by
    intro l l' k1 k2 k3 a ha
    obtain ⟨c, hcl, rfl⟩ := List.mem_map.1 ha
    obtain ⟨he, d, hd, d1, d2⟩ := k3 _ _ ⟨c, hcl, rfl, rfl⟩
    refine List.mem_map.2 ⟨d, hd, ?_⟩
    have hd' := k2 d hd
    have hc' := k1 c hcl
    rw [d1, d2] at hd'
    have := (C40.direction_unique hd' hc' (by unfold cross; ring) (saddle_pos h.shut hf hθ hc' he)).2
    rw [d1, d2, this]
  refine ⟨L, L', max M M', fun fuel hfuel => e1 fuel ((le_max_left _ _).trans hfuel), fun fuel hfuel => g1 fuel ((le_max_right _ _).trans hfuel),
    g2.sorted, ?_, List.pairwise_map.2 g2.once⟩
  refine (List.perm_ext_iff_of_nodup (nd g2.once) (nd e3)).2 fun a => ⟨sub g2.valid e2 (fun e v k => ?_) a, sub e2 g2.valid (fun e v k => ?_) a⟩
  · have k' := (g2.iff e v).1 k
    exact ⟨k'.1, (e4 e v).2 ⟨k'.1, k'.2.1, k'.2.2.1⟩⟩
  · have k' := (e4 e v).1 k
    exact ⟨k'.1, (g2.iff e v).2 ⟨k'.1, k'.2.1, k'.2.2, trivial⟩⟩

/-- If a search is not bounded, then `byLength()` reports the shortest saddle connections first: if there are at least `n`
saddle connections that are admitted by the restrictions, then the first `n` that are reported are different, they are
admitted, their lengths do not decrease, and every other saddle connection that is admitted is at least as long as all of
them. -/
theorem shortest_first {f : T →+* ℝ} (hf : StrictMono f) (A : Option (Approx T K)) {dbg : Bool} {S : FlatTri T}
    (h : Closed dbg S) (hne : 0 < S.tri.size) {θ : HE → ℝ} (hθ : AllCorners f S θ) {fs : List (Restriction T)}
    (hv : ∀ g ∈ fs, ValidRestriction f S θ g) (hb : ∀ b, .bound b ∉ fs) {sort : List Saddle → List Saddle} (hs : SortsByLength S A sort)
    {upper : Vec T → Bound} (hup : ∀ v, dot v v ≤ ((upper v).square : T)) :
    ∃ N, ∀ fuel ≥ N, ∃ st, run A false S fuel (make S) fs = some (.ok st) ∧
      ∀ (debug : Bool) (X : List (HE × Vec T)), X ≠ [] → X.Nodup →
        (∀ x ∈ X, x.1 < S.tri.size ∧ (∃ t, IsSaddleConnection S x.1 x.2 t) ∧ ∀ g ∈ fs, Admits f S θ x g) →
        ∃ L M, (∀ fuel ≥ M, enumerateFirsts ⟨A, debug, S, st, sort, upper⟩ fuel X.length = some (.ok L)) ∧ L.length = X.length ∧
          (∀ c ∈ L, IsSaddleConnection S c.source (S.saddleVector c) c.target ∧ ∀ g ∈ fs, Admits f S θ (c.source, S.saddleVector c) g) ∧
          (L.map fun c => (c.source, S.saddleVector c)).Nodup ∧
          (L.Pairwise fun c d => dot (S.saddleVector c) (S.saddleVector c) ≤ dot (S.saddleVector d) (S.saddleVector d)) ∧
          ∀ e v, e < S.tri.size → (∃ t, IsSaddleConnection S e v t) → (∀ g ∈ fs, Admits f S θ (e, v) g) →
            (∃ c ∈ L, c.source = e ∧ S.saddleVector c = v) ∨ ∀ c ∈ L, dot (S.saddleVector c) (S.saddleVector c) ≤ dot v v := by
  obtain ⟨N, hN⟩ := exists_fuel (S := S) fs
  obtain ⟨N', hN'⟩ := C39.filters_intersect hf A h hθ hv
  refine ⟨max N N', fun fuel hfuel => ?_⟩
  have hc := cor h.shut hf hθ
  obtain ⟨st, h1, h2, -⟩ := run_spec A h.shut hf hθ fs (hN fuel ((le_max_left _ _).trans hfuel)) hv
    (make_inv A hc fun e he => (hθ e (Finset.mem_range.2 he)).2.1)
  obtain ⟨st', h1', h3⟩ := hN' fuel ((le_max_right _ _).trans hfuel)
  rw [h1] at h1'
  injection h1' with h1'
  injection h1' with h1'
  subst h1'
  refine ⟨st, h1, fun debug X hX hX' hX'' => ?_⟩
  have hr := run_none A fs h1 rfl hb
  have key : ∀ {e v t}, e < S.tri.size → IsSaddleConnection S e v t → (Searched A st (e, v) ↔ ∀ g ∈ fs, Admits f S θ (e, v) g) :=
    fun he ht => (h3 _ (SaddleSearch.isDirection h.shut hc he ht)).1
  obtain ⟨L, M, g1, g2, g3, g4, g5, g6⟩ := nearest_spec (P := ⟨A, debug, S, st, sort, upper⟩) h.shut hf hθ h2 hs hr hne hup hX'
    (fun x hx => by
      obtain ⟨k1, ⟨t, k2⟩, k3⟩ := hX'' x hx
      exact ⟨k1, ⟨t, k2⟩, (key k1 k2).2 k3⟩) hX
  refine ⟨L, M, g1, g2, fun c hcl => ?_, List.pairwise_map.2 g4, g5, fun e v he ⟨t, ht⟩ ha => g6 e v he ⟨t, ht⟩ ((key he ht).2 ha)⟩
  obtain ⟨k1, k2, k3⟩ := g3 c hcl
  exact ⟨k2, (key k1 k2).1 k3⟩

/-- A way to sort by length. -/
def sortInt (S : FlatTri ℤ) (l : List Saddle) : List Saddle :=
  l.insertionSort fun c d => dot (S.saddleVector c) (S.saddleVector c) ≤ dot (S.saddleVector d) (S.saddleVector d)

theorem sortInt_spec (S : FlatTri ℤ) : SortsByLength S (none : Option (Approx ℤ ℚ)) (sortInt S) := by
  intro l
  refine ⟨List.perm_insertionSort _ l, ?_⟩
  have : Std.Total fun c d : Saddle => dot (S.saddleVector c) (S.saddleVector c) ≤ dot (S.saddleVector d) (S.saddleVector d) :=
    ⟨fun c d => le_total _ _⟩
  have : IsTrans Saddle fun c d : Saddle => dot (S.saddleVector c) (S.saddleVector c) ≤ dot (S.saddleVector d) (S.saddleVector d) :=
    ⟨fun _ _ _ => le_trans⟩
  refine (List.pairwise_insertionSort (fun c d : Saddle => dot (S.saddleVector c) (S.saddleVector c) ≤ dot (S.saddleVector d) (S.saddleVector d)) l).imp fun k => ?_
  rw [compareLength_eq, decide_eq_false_iff_not, not_lt]
  exact k

/-- The hypotheses can be met by a search in a sector of a torus that is bounded above and below, and by one that is not
bounded and admits some saddle connections. -/
example : ∃ (θ : HE → ℝ) (fs : List (Restriction ℤ)), AllCorners (Int.castRingHom ℝ) flatTorus θ ∧
    fs = [.vectors ⟨2, 1⟩ ⟨-1, 2⟩, .bound (.ofInt 5), .lowerBound (.ofInt 1)] ∧
    (∀ g ∈ fs, ValidRestriction (Int.castRingHom ℝ) flatTorus θ g) ∧ Closed true flatTorus ∧ 0 < flatTorus.tri.size ∧ (∃ b, .bound b ∈ fs) ∧
    SortsByLength flatTorus (none : Option (Approx ℤ ℚ)) (sortInt flatTorus) ∧
    (∀ v : Vec ℤ, dot v v ≤ ((Bound.upperInt v).square : ℤ)) ∧
    (∀ b, .bound b ∉ ([.halfEdge 0] : List (Restriction ℤ))) ∧
    ∀ x ∈ ([(0, ⟨1, 0⟩), (0, ⟨3, 2⟩)] : List (HE × Vec ℤ)), x.1 < flatTorus.tri.size ∧ (∃ t, IsSaddleConnection flatTorus x.1 x.2 t) ∧
      ∀ g ∈ ([.halfEdge 0] : List (Restriction ℤ)), Admits (Int.castRingHom ℝ) flatTorus θ x g := by
  obtain ⟨θ, hθ⟩ := C39.corners_exist (f := Int.castRingHom ℝ) Int.cast_strictMono C30.flatTorus_closed
  refine ⟨θ, _, hθ, rfl, fun g hg => ?_, C30.flatTorus_closed, by decide, ⟨.ofInt 5, by simp⟩, sortInt_spec _, fun v => le_rfl, fun b => by simp, fun x hx => ?_⟩
  · fin_cases hg
    · exact ⟨by decide, by decide⟩
    · trivial
    · show (0 : ℤ) ≤ _
      decide
  · have key : ∀ {v : Vec ℤ} {x t : HE} {q : Vec ℤ}, v = apex flatTorus x q →
        t = flatTorus.tri.nextInFace (flatTorus.tri.nextInFace (neg x)) → Hits flatTorus v x q t := by
      rintro v x t q h rfl
      exact .here h
    fin_cases hx
    · exact ⟨by decide, ⟨1, .halfEdge (by decide) (by decide)⟩, fun g hg => by fin_cases hg; rfl⟩
    · exact ⟨by decide, ⟨1, .crossing (by decide) (by decide) (.left (by decide) (.right (by decide) (key (by decide) (by decide))))⟩,
        fun g hg => by fin_cases hg; rfl⟩

/-- This search reports some saddle connections. -/
example : ((ByLength.enumerate ⟨(none : Option (Approx ℤ ℚ)), true, flatTorus,
    ⟨[⟨0, some (⟨2, 1⟩, ⟨1, 1⟩)⟩, ⟨4, none⟩, ⟨2, some (⟨0, 1⟩, ⟨-1, 2⟩)⟩], some (.ofInt 4), .ofInt 1⟩, sortInt flatTorus, Bound.upperInt⟩ 100).map fun r => r.toOption.map fun l =>
      l.map fun c => (c.source, flatTorus.saddleVector c)) =
    some (some [(4, ⟨1, 1⟩), (0, ⟨2, 1⟩), (4, ⟨1, 2⟩), (4, ⟨1, 3⟩), (2, ⟨-1, 3⟩), (0, ⟨3, 2⟩), (4, ⟨2, 3⟩)]) := by
  decide +kernel

end Verif.C41
