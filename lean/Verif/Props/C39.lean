import Verif.Lemmas.SaddleFilters
import Verif.Lemmas.FlatExamples
import Verif.Props.C15
import Verif.Props.C30
import Verif.Props.C75

/-!
# C39: Saddle connection filters only ever restrict
-/

namespace Verif.C39

open Verif Spec Tri FlatTri Examples Vec Real SaddleConnections

variable {T : Type} [CommRing T] [LinearOrder T] [IsStrictOrderedRing T]
variable {K : Type} [Field K] [LinearOrder K] [IsStrictOrderedRing K]

/-- The corners of a closed surface have angles. -/
theorem corners_exist {f : T →+* ℝ} (hf : StrictMono f) {dbg : Bool} {S : FlatTri T} (h : Closed dbg S) :
    ∃ θ, AllCorners f S θ := by
  have : ∀ e : HE, ∃ t : ℝ, e < S.tri.size → 0 ≤ t ∧ t < 2 * π ∧
      Turns ((S.vec e).map f) t ((S.vec (S.tri.nextAtVertex e)).map f) := by
    intro e
    by_cases he : e < S.tri.size
    · obtain ⟨v, -, hv⟩ := h.shut.source he
      obtain ⟨θ, hθ⟩ := h.shut.flat.exists_corners hf hv fun x hx => h.shut.nb x (h.shut.lt_of_orb he ((hv x).1 hx))
      exact ⟨θ e, fun _ => hθ e ((hv e).2 (Perm.Orb.refl _ _))⟩
    · exact ⟨0, fun k => absurd k he⟩
  choose θ hθ using this
  exact ⟨θ, fun e he => hθ e (Finset.mem_range.1 he)⟩

/-- The directions are those that are in the sector at a half edge. -/
theorem isDirection_iff {f : T →+* ℝ} (hf : StrictMono f) (A : Option (Approx T K)) {dbg : Bool} {S : FlatTri T}
    (h : Closed dbg S) {θ : HE → ℝ} (hθ : AllCorners f S θ) (c : HE × Vec T) :
    IsDirection f S θ c ↔ c.1 < S.tri.size ∧ S.inSector A c.1 c.2 = true := by
  refine and_congr_right fun hc => ?_
  obtain ⟨v, hv, hv'⟩ := h.shut.source hc
  have hvm : v ∈ S.tri.vertexes := List.mem_of_find?_eq_some hv
  rw [C75.inCorner_exists hf A h.reachable h.flat hvm _ (fun e he => hθ e (Finset.mem_range.2 (h.shut.lt_of_orb hc ((hv' e).1 he))))
    ((hv' _).2 (Perm.Orb.refl _ _))]
  · exact ⟨fun k => ⟨InCorner.ne_zero (cor h.shut hf hθ) hc k.choose_spec, k⟩, fun k => k.2⟩
  · intro e he
    have := h.shut.nb e (h.shut.lt_of_orb hc ((hv' e).1 he))
    unfold Tri.boundary
    simpa using this

/-- A sequence of restrictions has the effect of the intersection of these restrictions: in release builds all the calls
succeed, then a saddle connection is searched exactly if each of the calls admits it, and it is in at most one of the
sectors, i.e., it cannot be found more than once. -/
theorem filters_intersect {f : T →+* ℝ} (hf : StrictMono f) (A : Option (Approx T K)) {dbg : Bool} {S : FlatTri T}
    (h : Closed dbg S) {θ : HE → ℝ} (hθ : AllCorners f S θ) {fs : List (Restriction T)} (hv : ∀ g ∈ fs, ValidRestriction f S θ g) :
    ∃ N, ∀ fuel ≥ N, ∃ st, run A false S fuel (make S) fs = some (.ok st) ∧
      ∀ c, IsDirection f S θ c → (Searched A st c ↔ ∀ g ∈ fs, Admits f S θ c g) ∧
        ∀ (i j : ℕ) s t, st.sectors[i]? = some s → st.sectors[j]? = some t → contains A s c.1 c.2 = .ok true →
          contains A t c.1 c.2 = .ok true → i = j := by
  obtain ⟨N, hN⟩ := exists_fuel (S := S) fs
  refine ⟨N, fun fuel hfuel => ?_⟩
  have hc := cor h.shut hf hθ
  obtain ⟨st, h1, h2, h3⟩ := run_spec A h.shut hf hθ fs (hN fuel hfuel) hv
    (make_inv A hc fun e he => (hθ e (Finset.mem_range.2 he)).2.1)
  refine ⟨st, h1, fun c hcd => ⟨?_, fun i j s t hi hj hs ht => ?_⟩⟩
  · rw [h2.searched A hcd, h3 c]
    simp only [admits_iff]
    have hl : Length A (make S) c := by
      refine ⟨fun r hr => (by cases hr), ?_⟩
      rw [gtBound_eq, decide_eq_true_eq]
      obtain ⟨σ, hσ⟩ := hcd.2
      change ((0 : ℤ) : T) < _
      rw [Int.cast_zero]
      exact dot_self_pos (InCorner.ne_zero hc hcd.1 hσ)
    exact ⟨fun k g hg => ⟨k.1.2 g hg, k.2.2 g hg⟩, fun k => ⟨⟨trivial, fun g hg => (k g hg).1⟩, hl, fun g hg => (k g hg).2⟩⟩
  · have hle : st.sectors.countP (has A c) ≤ 1 := by
      by_cases k : True ∧ ∀ g ∈ fs, AdmitsSector f S θ c g
      · exact (h2.once c hcd k).le
      · rw [h2.never c hcd k]
        exact zero_le_one
    have hs' := (has_iff A (c := c)).2 hs
    have ht' := (has_iff A (c := c)).2 ht
    clear h1 h2 h3
    generalize st.sectors = L at *
    induction L generalizing i j with
    | nil => simp at hi
    | cons x L ih =>
      rw [List.countP_cons] at hle
      have none : has A c x = true → ∀ (k : ℕ) y, L[k]? = some y → ¬ has A c y = true := by
        intro hx k y hk hy
        rw [if_pos hx] at hle
        exact List.countP_eq_zero.1 (show L.countP (has A c) = 0 by omega) y (List.mem_of_getElem? hk) hy
      cases i with
      | zero =>
        rw [List.getElem?_cons_zero, Option.some.injEq] at hi
        cases j with
        | zero => rfl
        | succ j =>
          rw [List.getElem?_cons_succ] at hj
          exact absurd ht' (none (hi ▸ hs') j t hj)
      | succ i =>
        rw [List.getElem?_cons_succ] at hi
        cases j with
        | zero =>
          rw [List.getElem?_cons_zero, Option.some.injEq] at hj
          exact absurd hs' (none (hj ▸ ht') i s hi)
        | succ j =>
          rw [List.getElem?_cons_succ] at hj
          rw [ih i j hi hj (by split_ifs at hle <;> omega)]

/-- In debug builds, the calls have the same effect as in release builds if they do not fail. -/
theorem debug_same (A : Option (Approx T K)) (S : FlatTri T) (fuel : ℕ) (fs : List (Restriction T)) {st : State T}
    (h : run A true S fuel (make S) fs = some (.ok st)) : run A false S fuel (make S) fs = some (.ok st) := by
  rcases run_debug A (S := S) fuel fs (make S) with k | k
  · rw [k] at h
    cases h
  · rw [← k, h]

/-- The order of the calls does not matter, and neither does it matter whether a call is repeated. -/
theorem order_irrelevant {f : T →+* ℝ} (hf : StrictMono f) (A : Option (Approx T K)) {dbg : Bool} {S : FlatTri T}
    (h : Closed dbg S) {θ : HE → ℝ} (hθ : AllCorners f S θ) {fs gs : List (Restriction T)} (hv : ∀ g ∈ fs, ValidRestriction f S θ g)
    (hfg : ∀ g, g ∈ fs ↔ g ∈ gs) :
    ∃ N, ∀ fuel ≥ N, ∃ st st', run A false S fuel (make S) fs = some (.ok st) ∧
      run A false S fuel (make S) gs = some (.ok st') ∧
      ∀ c, IsDirection f S θ c → (Searched A st c ↔ Searched A st' c) := by
  obtain ⟨N, hN⟩ := filters_intersect hf A h hθ hv
  obtain ⟨M, hM⟩ := filters_intersect hf A h hθ (fs := gs) fun g hg => hv g ((hfg g).2 hg)
  refine ⟨max N M, fun fuel hfuel => ?_⟩
  obtain ⟨st, h1, h2⟩ := hN fuel (le_trans (le_max_left _ _) hfuel)
  obtain ⟨st', h3, h4⟩ := hM fuel (le_trans (le_max_right _ _) hfuel)
  refine ⟨st, st', h1, h3, fun c hc => ?_⟩
  rw [(h2 c hc).1, (h4 c hc).1]
  exact forall_congr' fun g => by rw [hfg]

/-- Further calls only ever restrict. -/
theorem only_restrict {f : T →+* ℝ} (hf : StrictMono f) (A : Option (Approx T K)) {dbg : Bool} {S : FlatTri T}
    (h : Closed dbg S) {θ : HE → ℝ} (hθ : AllCorners f S θ) {fs gs : List (Restriction T)}
    (hv : ∀ g ∈ fs ++ gs, ValidRestriction f S θ g) :
    ∃ N, ∀ fuel ≥ N, ∃ st st', run A false S fuel (make S) fs = some (.ok st) ∧
      run A false S fuel (make S) (fs ++ gs) = some (.ok st') ∧
      ∀ c, IsDirection f S θ c → Searched A st' c → Searched A st c := by
  obtain ⟨N, hN⟩ := filters_intersect hf A h hθ (fs := fs) fun g hg => hv g (List.mem_append_left _ hg)
  obtain ⟨M, hM⟩ := filters_intersect hf A h hθ hv
  refine ⟨max N M, fun fuel hfuel => ?_⟩
  obtain ⟨st, h1, h2⟩ := hN fuel (le_trans (le_max_left _ _) hfuel)
  obtain ⟨st', h3, h4⟩ := hM fuel (le_trans (le_max_right _ _) hfuel)
  refine ⟨st, st', h1, h3, fun c hc k => ?_⟩
  rw [(h2 c hc).1]
  exact fun g hg => (h4 c hc).1.1 k g (List.mem_append_left _ hg)

/-- A sector that is bounded by a zero vector is rejected unless nothing is searched anyway. -/
theorem zero_rejected {f : T →+* ℝ} (hf : StrictMono f) (A : Option (Approx T K)) {dbg : Bool} {S : FlatTri T}
    (h : Closed dbg S) {θ : HE → ℝ} (hθ : AllCorners f S θ) {fs : List (Restriction T)} (hv : ∀ g ∈ fs, ValidRestriction f S θ g)
    {b e : Vec T} (h0 : b = 0 ∨ e = 0) :
    ∃ N, ∀ fuel ≥ N, ∀ st, run A false S fuel (make S) fs = some (.ok st) → st.sectors ≠ [] →
      step A false S fuel st (.vectors b e) = some (.error .invalidArgument) := by
  obtain ⟨N, hN⟩ := exists_fuel (S := S) fs
  refine ⟨N, fun fuel hfuel st hst hne => ?_⟩
  have hc := cor h.shut hf hθ
  obtain ⟨st', h1, h2, -⟩ := run_spec A h.shut hf hθ fs (hN fuel hfuel) hv
    (make_inv A hc fun e he => (hθ e (Finset.mem_range.2 he)).2.1)
  rw [hst] at h1
  injection h1 with h1
  injection h1 with h1
  subst h1
  change sectorVectors A false S st b e = _
  unfold sectorVectors
  rw [forSectors_zero hne fun s hs => ?_]
  · rfl
  · obtain ⟨x, y, hok⟩ := h2.ok s hs
    rw [refine_zero A hc hok h0 fun v p q hz => C15.inSector_rejects A v p q (.inl hz)]

/-- The hypotheses can be met by calls that restrict the search to some of the directions in a torus. -/
example : ∃ (θ : HE → ℝ) (fs : List (Restriction ℤ)), AllCorners (Int.castRingHom ℝ) flatTorus θ ∧
    fs = [.vectors ⟨2, 1⟩ ⟨-1, 2⟩, .halfEdge 0, .bound (.ofInt 5), .lowerBound (.ofInt 1), .vectors ⟨1, 0⟩ ⟨3, 2⟩] ∧
    (∀ g ∈ fs, ValidRestriction (Int.castRingHom ℝ) flatTorus θ g) ∧ Closed true flatTorus := by
  obtain ⟨θ, hθ⟩ := corners_exist (f := Int.castRingHom ℝ) Int.cast_strictMono C30.flatTorus_closed
  refine ⟨θ, _, hθ, rfl, fun g hg => ?_, C30.flatTorus_closed⟩
  fin_cases hg
  · exact ⟨by decide, by decide⟩
  · trivial
  · trivial
  · show (0 : ℤ) ≤ _
    decide
  · exact ⟨by decide, by decide⟩

/-- There are directions that these calls leave and others that they do not leave. -/
example : ∃ st, run (none : Option (Approx ℤ ℚ)) false flatTorus 0 (make flatTorus)
      [.vectors ⟨2, 1⟩ ⟨-1, 2⟩, .halfEdge 0, .bound (.ofInt 5), .lowerBound (.ofInt 1), .vectors ⟨1, 0⟩ ⟨3, 2⟩] = some (.ok st) ∧
    Searched (none : Option (Approx ℤ ℚ)) st (0, ⟨2, 1⟩) ∧ ¬ Searched (none : Option (Approx ℤ ℚ)) st (0, ⟨3, 2⟩) := by
  refine ⟨⟨[⟨0, some (⟨2, 1⟩, ⟨3, 2⟩)⟩], some (.ofInt 5), .ofInt 1⟩, rfl, ⟨⟨_, List.mem_cons_self, rfl⟩, ?_, by decide⟩, ?_⟩
  · intro r hr
    injection hr with hr
    subst hr
    decide
  · rintro ⟨⟨t, ht, hk⟩, -⟩
    rw [List.mem_singleton] at ht
    subst ht
    cases (show Except.ok false = Except.ok true from hk)

/-- Sectors can also be given by saddle connections. -/
example : ∃ θ, AllCorners (Int.castRingHom ℝ) flatTorus θ ∧
    ValidRestriction (Int.castRingHom ℝ) flatTorus θ (.connections (0, ⟨2, 1⟩) (1, ⟨-2, -1⟩)) ∧
    ∃ st, run (none : Option (Approx ℤ ℚ)) false flatTorus 10 (make flatTorus) [.connections (0, ⟨2, 1⟩) (1, ⟨-2, -1⟩)] =
      some (.ok st) ∧ Searched (none : Option (Approx ℤ ℚ)) st (2, ⟨-1, 1⟩) ∧ ¬ Searched (none : Option (Approx ℤ ℚ)) st (3, ⟨1, -1⟩) := by
  obtain ⟨θ, hθ⟩ := corners_exist (f := Int.castRingHom ℝ) Int.cast_strictMono C30.flatTorus_closed
  refine ⟨θ, hθ, ⟨?_, ?_⟩, ⟨[⟨0, some (⟨2, 1⟩, ⟨1, 1⟩)⟩, ⟨1, some (⟨-1, 0⟩, ⟨-2, -1⟩)⟩, ⟨2, none⟩, ⟨4, none⟩], none, .zero⟩,
    rfl, ⟨⟨⟨2, none⟩, by simp, rfl⟩, fun r hr => (by cases hr), by decide⟩, ?_⟩
  · exact (isDirection_iff Int.cast_strictMono (none : Option (Approx ℤ ℚ)) C30.flatTorus_closed hθ _).2 ⟨by decide, by decide⟩
  · exact (isDirection_iff Int.cast_strictMono (none : Option (Approx ℤ ℚ)) C30.flatTorus_closed hθ _).2 ⟨by decide, by decide⟩
  · rintro ⟨⟨t, ht, hk⟩, -⟩
    fin_cases ht <;> cases (show Except.ok false = Except.ok true from hk)

end Verif.C39
