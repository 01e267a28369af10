import Verif.Lemmas.SaddleSample
import Verif.Spec.SaddleSample
import Verif.Props.C40

/-!
# Sampling saddle connections in entire corners
-/

namespace Verif

open Spec Tri FlatTri Vec SaddleConnections SaddleSearch

variable {T : Type} [CommRing T] [LinearOrder T] [IsStrictOrderedRing T]
variable {K : Type} [Field K] [LinearOrder K] [IsStrictOrderedRing K]

set_option linter.unusedSectionVars false

namespace SaddleSample

/-- A search in entire corners. -/
structure Entire (S : FlatTri T) (st : State T) : Prop where
  whole : ∀ s ∈ st.sectors, s.sector = none ∧ s.source < S.tri.size
  nodup : (st.sectors.map (·.source)).Nodup
  unbounded : st.searchRadius = none

theorem entire_make {S : FlatTri T} : Entire S (SaddleConnections.make S) := by
  refine ⟨fun s hs => ?_, ?_, rfl⟩
  · obtain ⟨e, he, rfl⟩ := List.mem_map.1 hs
    exact ⟨rfl, mem_halfEdges.1 he⟩
  · unfold SaddleConnections.make
    rw [List.map_map]
    change (List.map id _).Nodup
    rw [List.map_id]
    exact List.nodup_range

theorem Entire.filter {S : FlatTri T} {st : State T} (h : Entire S st) (p : Sector T → Bool) : Entire S { st with sectors := st.sectors.filter p } :=
  ⟨fun s hs => h.whole s (List.mem_filter.1 hs).1, h.nodup.sublist ((List.filter_sublist).map _), h.unbounded⟩

theorem Entire.run {S : FlatTri T} (h : S.Shut) (hvert : ∀ v ∈ S.tri.vertexes, ∀ x ∈ v, ∀ y, y ∈ v ↔ S.tri.vertices.Orb x y) (A : Option (Approx T K)) {dbg : Bool} {e : HE} (he : e < S.tri.size) {f : T →+* ℝ}
    {θ : HE → ℝ} {fuel : ℕ} : ∀ (fs : List (Restriction T)) {st st' : State T}, (∀ g ∈ fs, InSource e g) → (∀ g ∈ fs, ValidRestriction f S θ g) → Entire S st →
      ⟨e, none⟩ ∈ st.sectors → SaddleConnections.run A dbg S fuel st fs = some (.ok st') → Entire S st' ∧ ⟨e, none⟩ ∈ st'.sectors
  | [], st, st', _, _, h1, h2, h3 => by
    injection h3 with h3
    injection h3 with h3
    exact h3 ▸ ⟨h1, h2⟩
  | g :: fs, st, st', hg, hv, h1, h2, h3 => by
    have hg0 := hg g List.mem_cons_self
    have hv0 := hv g List.mem_cons_self
    have hrec := fun {st1 : State T} => Entire.run h hvert A (dbg := dbg) he (θ := θ) (fuel := fuel) fs (st := st1) (st' := st')
      (fun g k => hg g (List.mem_cons_of_mem _ k)) (fun g k => hv g (List.mem_cons_of_mem _ k))
    cases g with
    | bound b => exact absurd hg0 id
    | lowerBound b => exact hrec (st1 := SaddleConnections.lowerBound st b) ⟨h1.whole, h1.nodup, h1.unbounded⟩ h2 h3
    | source v =>
      refine hrec (st1 := SaddleConnections.source S st v) (h1.filter _) (List.mem_filter.2 ⟨h2, ?_⟩) h3
      obtain ⟨w, hw, hwo⟩ := h.source he
      dsimp only
      rw [hw]
      exact (h.sameVertex hwo (hvert v hv0 e hg0)).2 (Perm.Orb.refl _ _)
    | halfEdge e' =>
      refine hrec (st1 := SaddleConnections.sectorHalfEdge st e') (h1.filter _) (List.mem_filter.2 ⟨h2, ?_⟩) h3
      have : e' = e := hg0
      simp [this]
    | vectors b e => exact absurd hg0 id
    | connections b e => exact absurd hg0 id

theorem filter_source {l : List (Sector T)} (hn : (l.map (·.source)).Nodup) {s : Sector T} (hs : s ∈ l) : (l.filter fun t => t.source = s.source) = [s] := by
  induction l with
  | nil => cases hs
  | cons a l ih =>
    rw [List.map_cons, List.nodup_cons] at hn
    rw [List.filter_cons]
    rcases List.mem_cons.1 hs with rfl | hs
    · rw [if_pos (by simp)]
      congr 1
      rw [List.filter_eq_nil_iff]
      intro t ht k
      exact hn.1 (List.mem_map.2 ⟨t, ht, by simpa using k⟩)
    · rw [if_neg, ih hn.2 hs]
      intro k
      have : a.source = s.source := by simpa using k
      exact hn.1 (List.mem_map.2 ⟨s, hs, this.symm⟩)

/-- There are only finitely many saddle connections of bounded length. -/
theorem short_finite {f : T →+* ℝ} (hf : StrictMono f) (A : Option (Approx T K)) {dbg : Bool} {S : FlatTri T} (h : Closed dbg S) (b : Bound) :
    ∃ L : Finset (Vec T), ∀ e < S.tri.size, ∀ v t, IsSaddleConnection S e v t → Vec.gtBound A v b = false → v ∈ L := by
  obtain ⟨θ, hθ⟩ := C39.corners_exist hf h
  obtain ⟨N, hN⟩ := C40.search_exact hf A h hθ (fs := [.bound b]) (by simp [ValidRestriction]) ⟨b, by simp⟩
  obtain ⟨st, -, hst⟩ := hN N le_rfl
  obtain ⟨L, M, -, -, -, hL⟩ := hst false
  refine ⟨(L.map S.saddleVector).toFinset, fun e he v t ht hb => ?_⟩
  rw [List.mem_toFinset, List.mem_map]
  obtain ⟨c, c1, -, c3⟩ := (hL e v).2 ⟨he, ⟨t, ht⟩, by
    intro g hg
    rw [List.mem_singleton] at hg
    subst hg
    rw [gtBound_eq, decide_eq_false_iff_not, not_lt] at hb
    exact hb⟩
  exact ⟨c, c1, c3⟩

/-- A call of `increment` finds a new saddle connection. -/
theorem increment_spec {f : T →+* ℝ} (hf : StrictMono f) (A : Option (Approx T K)) {dbg debug : Bool} {S : FlatTri T} (h : Closed dbg S) {st : State T}
    (hst : Entire S st) (hne : st.sectors ≠ []) {seen : List Saddle} (hseen : ∀ d ∈ seen, Traced S d) {ω : Choices} (hω : ∀ i, (ω.side i).isSome) :
    ∃ c N, (∃ s ∈ st.sectors, c.source = s.source) ∧ Traced S c ∧ Vec.gtBound A (S.saddleVector c) st.lowerBound = true ∧
      (∀ d ∈ seen, (d.source, S.saddleVector d) ≠ (c.source, S.saddleVector c)) ∧
      ∀ fuel ≥ N, SaddleSample.increment A debug S st fuel seen ω = some (.ok (c, c :: seen)) := by
  have hpos : 0 < st.sectors.length := List.length_pos_iff.2 hne
  obtain ⟨s, hs⟩ : ∃ s, st.sectors[ω.sector % st.sectors.length]? = some s := ⟨_, List.getElem?_eq_getElem (Nat.mod_lt _ hpos)⟩
  have hm := List.mem_of_getElem? hs
  obtain ⟨s1, s2⟩ := hst.whole s hm
  have hfil : (sectorHalfEdge st s.source).sectors = [⟨s.source, none⟩] := by
    unfold sectorHalfEdge
    rw [filter_source hst.nodup hm, ← s1]
  set P : Params T K := ⟨A, debug, S, none, .zero⟩ with hP
  obtain ⟨m, m1, m2, m3, m4⟩ := start_going (P := P) h.shut rfl rfl s2
  obtain ⟨N, m', x', Q', g1, g2⟩ := m2.reach hf h.shut rfl rfl
  rw [m3, m4] at g2
  obtain ⟨L, hL⟩ := short_finite hf A h st.lowerBound
  obtain ⟨c, M, c1, c2⟩ := g2.finds hf h.shut rfl rfl s2 hω hseen (bad := L ∪ (seen.map S.saddleVector).toFinset)
    (fun c k1 k2 k3 => Finset.mem_union_left _ (hL c.source (k1 ▸ s2) _ _ (k2.isSaddle h.shut (k1 ▸ s2)) k3))
    (fun d hd => Finset.mem_union_right _ (List.mem_toFinset.2 (List.mem_map.2 ⟨d, hd, rfl⟩))) _ 0 _ _ _ _ _ (Nat.lt_succ_self _)
  refine ⟨c, N + M, ⟨s, hm, c1.source⟩, c1.traced, c1.longer, c1.new, fun fuel hfuel => ?_⟩
  unfold SaddleSample.increment
  rw [if_neg (by rw [hst.unbounded]; simp), hs]
  have hrad : (sectorHalfEdge st s.source).searchRadius = none := hst.unbounded
  simp only [hfil, hrad, s1, Option.getD_none, Option.isSome_none, Bool.false_eq_true, false_and, and_false, if_false]
  rw [m1 fuel]
  simp only [Option.bind_some]
  rw [g1 fuel (by omega)]
  exact c2 fuel (by omega) fuel (by omega)

theorem more_spec {f : T →+* ℝ} (hf : StrictMono f) (A : Option (Approx T K)) {dbg debug : Bool} {S : FlatTri T} (h : Closed dbg S) {st : State T}
    (hst : Entire S st) (hne : st.sectors ≠ []) : ∀ (l : List Choices) {seen : List Saddle}, (∀ d ∈ seen, Traced S d) → (∀ ω ∈ l, ∀ i, (ω.side i).isSome) →
    ∃ L N, (∀ fuel ≥ N, more A debug S st fuel l seen = some (.ok L)) ∧ L.length = l.length ∧
      (∀ c ∈ L, (∃ s ∈ st.sectors, c.source = s.source) ∧ Traced S c ∧ Vec.gtBound A (S.saddleVector c) st.lowerBound = true) ∧
      (L.Pairwise fun c d => (c.source, S.saddleVector c) ≠ (d.source, S.saddleVector d)) ∧
      ∀ d ∈ seen, ∀ c ∈ L, (d.source, S.saddleVector d) ≠ (c.source, S.saddleVector c)
  | [], seen, _, _ => ⟨[], 0, fun _ _ => rfl, rfl, by simp, .nil, by simp⟩
  | ω :: l, seen, hseen, hl => by
    obtain ⟨c, N, c1, c2, c3, c4, c5⟩ := increment_spec hf A (debug := debug) h hst hne hseen (hl ω List.mem_cons_self)
    obtain ⟨L, M, k1, k2, k3, k4, k5⟩ := more_spec hf A (debug := debug) h hst hne l (seen := c :: seen) (fun d hd => by
      rcases List.mem_cons.1 hd with rfl | hd
      · exact c2
      · exact hseen d hd) fun ω k => hl ω (List.mem_cons_of_mem _ k)
    refine ⟨c :: L, N + M, fun fuel hfuel => ?_, by simp [k2], fun d hd => ?_, ?_, fun d hd c' hc' => ?_⟩
    · rw [more, c5 fuel (by omega)]
      simp only [Option.bind_some]
      rw [k1 fuel (by omega)]
      rfl
    · rcases List.mem_cons.1 hd with rfl | hd
      · exact ⟨c1, c2, c3⟩
      · exact k3 d hd
    · exact List.pairwise_cons.2 ⟨fun d hd => k5 c List.mem_cons_self d hd, k4⟩
    · rcases List.mem_cons.1 hc' with rfl | hc'
      · exact c4 d hd
      · exact k5 d (List.mem_cons_of_mem _ hd) c' hc'

theorem sample_eq (A : Option (Approx T K)) {debug : Bool} {S : FlatTri T} {st : State T} (hne : st.sectors ≠ []) (fuel : ℕ) (l : List Choices) :
    sample A debug S st fuel l = more A debug S st fuel l [] := by
  cases l with
  | nil => rfl
  | cons ω l =>
    have : construct A debug S st fuel ω = SaddleSample.increment A debug S st fuel [] ω := by
      unfold construct
      cases k : st.sectors with
      | nil => exact absurd k hne
      | cons s ss => rfl
    rw [sample, more, this]

theorem chained_of_hits {S : FlatTri T} (h : S.Shut) {v q : Vec T} {x t : HE} (hh : Hits S v x q t) :
    ∀ Q : ℕ → ℤ, x < S.tri.size → S.chainVector Q = q → ∃ c, Chained S v x Q t c := by
  induction hh with
  | @here x q hv =>
    rintro Q hx rfl
    exact ⟨_, .here (by rw [chainVector_apex h hx]; exact hv)⟩
  | @right x q t hv _ ih =>
    rintro Q hx rfl
    obtain ⟨c, hc⟩ := ih (apexChain S x Q) (apex_spec (q := 0) h hx).1 (chainVector_apex h hx Q)
    exact ⟨c, .right (by rw [chainVector_apex h hx]; exact hv) hc⟩
  | @left x q t hv _ ih =>
    rintro Q hx rfl
    obtain ⟨c, hc⟩ := ih (Chain.bump (apexChain S x Q) (S.tri.nextInFace (S.tri.nextInFace (neg x)))) (apex_spec (q := 0) h hx).2.1 (chainVector_second h hx Q)
    exact ⟨c, .left (by rw [chainVector_apex h hx]; exact hv) hc⟩

/-- A saddle connection in the interior of a corner can be sampled once those on the way to it have been. -/
theorem increment_toward (A : Option (Approx T K)) {dbg debug : Bool} {S : FlatTri T} (h : Closed dbg S) {st : State T}
    (hst : Entire S st) {e t : HE} (he : ⟨e, none⟩ ∈ st.sectors) {v : Vec T} (h0 : 0 < cross (S.vec e) v) (h1 : 0 < cross v (opposite S e))
    (hv : Hits S v (S.tri.nextInFace e) (opposite S e) t) (hlong : Vec.gtBound A v st.lowerBound = true) :
    ∃ B : Finset (Vec T), ∀ seen : List Saddle, (∀ d ∈ seen, Traced S d) → (∀ d ∈ seen, (d.source, S.saddleVector d) ≠ (e, v)) →
      ∃ ω c N, (∀ i, (ω.side i).isSome) ∧ c.source = e ∧ Traced S c ∧ (S.saddleVector c = v ∨ S.saddleVector c ∈ B) ∧
        (∀ d ∈ seen, (d.source, S.saddleVector d) ≠ (c.source, S.saddleVector c)) ∧
        ∀ fuel ≥ N, SaddleSample.increment A debug S st fuel seen ω = some (.ok (c, c :: seen)) := by
  obtain ⟨k, hk⟩ := List.getElem?_of_mem he
  have hlt : k < st.sectors.length := (List.getElem?_eq_some_iff.1 hk).1
  have s2 := (hst.whole _ he).2
  change e < _ at s2
  have hfil : (sectorHalfEdge st e).sectors = [⟨e, none⟩] := by
    unfold sectorHalfEdge
    exact filter_source hst.nodup he
  set P : Params T K := ⟨A, debug, S, none, .zero⟩ with hP
  obtain ⟨m, m1, m2, m3, m4⟩ := start_going (P := P) h.shut rfl rfl s2
  obtain ⟨ch, hch⟩ := chained_of_hits h.shut hv (oppositeChain S e) (next_lt h.shut s2) (chainVector_opposite h.shut s2)
  obtain ⟨B, hB⟩ := Chained.sampled (P := P) h.shut rfl rfl s2 hlong hch (next_lt h.shut s2)
  refine ⟨B, fun seen hseen hnew => ?_⟩
  obtain ⟨side, c, N, g1, g2, g3, m', g4, g5⟩ := hB seen hseen hnew m 0 m2 (by rw [m3]; exact h0) (by rw [m4, (root h.shut s2).1]; exact h1)
  refine ⟨⟨k, side⟩, c, N, g1, g2.source, g2.traced, g3, g2.new, fun fuel hfuel => ?_⟩
  unfold SaddleSample.increment
  have hs : st.sectors[(⟨k, side⟩ : Choices).sector % st.sectors.length]? = some ⟨e, none⟩ := by
    rw [Nat.mod_eq_of_lt hlt, hk]
  rw [if_neg (by rw [hst.unbounded]; simp), hs]
  have hrad : (sectorHalfEdge st e).searchRadius = none := hst.unbounded
  simp only [hfil, hrad, Option.getD_none, Option.isSome_none, Bool.false_eq_true, false_and, and_false, if_false]
  rw [m1 fuel]
  simp only [Option.bind_some]
  rw [g4 fuel (by omega)]
  rw [m3, m4] at g5
  exact g5 fuel (by omega) fuel (by omega) side fun _ _ => rfl

theorem more_toward (A : Option (Approx T K)) {dbg debug : Bool} {S : FlatTri T} (h : Closed dbg S) {st : State T}
    (hst : Entire S st) {e t : HE} (he : ⟨e, none⟩ ∈ st.sectors) {v : Vec T} (h0 : 0 < cross (S.vec e) v) (h1 : 0 < cross v (opposite S e))
    (hv : Hits S v (S.tri.nextInFace e) (opposite S e) t) (hlong : Vec.gtBound A v st.lowerBound = true) :
    ∃ l L N, (∀ ω ∈ l, ∀ i, (ω.side i).isSome) ∧ (∀ fuel ≥ N, more A debug S st fuel l [] = some (.ok L)) ∧ ∃ c ∈ L, c.source = e ∧ S.saddleVector c = v := by
  obtain ⟨B, hB⟩ := increment_toward A (debug := debug) h hst he h0 h1 hv hlong
  suffices key : ∀ n (seen : List Saddle), (B \ ((seen.filter fun d => d.source = e).map S.saddleVector).toFinset).card < n → (∀ d ∈ seen, Traced S d) →
      (∀ d ∈ seen, (d.source, S.saddleVector d) ≠ (e, v)) → ∃ l L N, (∀ ω ∈ l, ∀ i, (ω.side i).isSome) ∧
        (∀ fuel ≥ N, more A debug S st fuel l seen = some (.ok L)) ∧ ∃ c ∈ L, c.source = e ∧ S.saddleVector c = v from
    key _ [] (Nat.lt_succ_self _) (by simp) (by simp)
  intro n
  induction n with
  | zero => intro seen k; exact absurd k (Nat.not_lt_zero _)
  | succ n ih =>
    intro seen hn hseen hnew
    obtain ⟨ω, c, N, k1, k2, k3, k4, k5, k6⟩ := hB seen hseen hnew
    by_cases hcv : S.saddleVector c = v
    · refine ⟨[ω], [c], N, ?_, fun fuel hfuel => ?_, c, by simp, k2, hcv⟩
      · intro ω' hω
        rw [List.mem_singleton] at hω
        exact hω ▸ k1
      · rw [more, k6 fuel hfuel]
        rfl
    · have hB := k4.resolve_left hcv
      obtain ⟨l, L, M, j1, j2, d, j3, j4⟩ := ih (c :: seen) (by
        have : (B \ (((c :: seen).filter fun d => d.source = e).map S.saddleVector).toFinset) ⊂
            (B \ ((seen.filter fun d => d.source = e).map S.saddleVector).toFinset) := by
          rw [List.filter_cons_of_pos (by simpa using k2), List.map_cons, List.toFinset_cons, Finset.ssubset_iff_of_subset]
          · refine ⟨S.saddleVector c, Finset.mem_sdiff.2 ⟨hB, fun k => ?_⟩, fun k => (Finset.mem_sdiff.1 k).2 (Finset.mem_insert_self _ _)⟩
            rw [List.mem_toFinset, List.mem_map] at k
            obtain ⟨d, d1, d2⟩ := k
            obtain ⟨d3, d4⟩ := List.mem_filter.1 d1
            exact k5 d d3 (Prod.ext ((of_decide_eq_true d4).trans k2.symm) d2)
          · exact Finset.sdiff_subset_sdiff (Finset.Subset.refl _) (Finset.subset_insert _ _)
        have := Finset.card_lt_card this
        omega) (fun d hd => by
          rcases List.mem_cons.1 hd with rfl | hd
          · exact k3
          · exact hseen d hd) (fun d hd => by
          rcases List.mem_cons.1 hd with rfl | hd
          · exact fun k => hcv (congrArg Prod.snd k)
          · exact hnew d hd)
      refine ⟨ω :: l, c :: L, N + M, ?_, fun fuel hfuel => ?_, d, List.mem_cons_of_mem _ j3, j4⟩
      · intro ω' hω
        rcases List.mem_cons.1 hω with rfl | hω
        · exact k1
        · exact j1 ω' hω
      · rw [more, k6 fuel (by omega)]
        simp only [Option.bind_some]
        rw [j2 fuel (by omega)]
        rfl

end SaddleSample

end Verif
