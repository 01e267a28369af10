import Verif.Props.C121

/-!
# C122: deformations that rename half edges can be inverted
-/

namespace Verif.C122

open Verif Spec Tri FlatTri Examples Vec

variable {T : Type} [CommRing T] [LinearOrder T] [IsStrictOrderedRing T]
variable {K : Type*} [Field K] [LinearOrder K] [IsStrictOrderedRing K]
variable {dbg : Bool} {S S' : FlatTri T} {σ : HE → HE} {R : Combinatorial T}

/-- The section of a deformation is the deformation that renames half edges back. -/
theorem section_correct (h : Closed dbg S) (h' : Closed dbg S') (hr : Renaming S S' σ) (hR : Deforms dbg S S' σ R) :
    ∃ R' τ, R.inverse dbg = .ok R' ∧ (∀ e ∈ S.tri.halfEdges, τ (σ e) = e) ∧ Renaming S' S τ ∧ Deforms dbg S' S τ R' := by
  obtain ⟨m, hm, rfl⟩ := C121.deforms_eq h h' hr hR
  obtain ⟨τ, hτ⟩ := hr.exists_inverse
  have hb := hr.back h.shut hτ
  have ht := inverse_table hr.bijective hτ hm
  have hmk := Combinatorial.make_spec dbg h'.shut ht hb.opposite (C := S) fun e he => h.shut.flat.odd _ (hb.lt (mem_halfEdges.1 he))
  exact ⟨_, τ, hmk, fun e he => hτ e (mem_halfEdges.1 he), hb, hb.opposite, _, ht, hmk⟩

/-- The section maps the image of a point back to the point. -/
theorem section_point (h : Closed dbg S) (h' : Closed dbg S') (hr : Renaming S S' σ) (hR : Deforms dbg S S' σ R)
    {R' : Combinatorial T} (hR' : R.inverse dbg = .ok R') {δ p p' : Point T} (hp : C30.Created dbg S δ p)
    (hp' : R.point dbg p = .ok p') : ∃ q, R'.point dbg p' = .ok q ∧ S.pointEq p q = .ok true := by
  obtain ⟨R'', τ, h1, h2, h3, h4⟩ := section_correct h h' hr hR
  rw [hR'] at h1; cases h1
  obtain ⟨δ', q', g1, g2, g3⟩ := C121.point_correct h h' hr hR hp
  rw [hp'] at g1; cases g1
  obtain ⟨δ'', q, k1, k2, k3⟩ := C121.point_correct h' h h3 h4 g2
  refine ⟨q, k1, ?_⟩
  obtain ⟨r, e1, e2⟩ := C30.eq_correct h hp k2
  rw [e1, e2.2]
  refine SamePosition.trans ?_ k3
  have := (h3.same h'.shut g3).2 (hr.lt hp.1.lt)
  rwa [show renamedPoint τ (renamedPoint σ δ) = δ by
    unfold renamedPoint; dsimp only; rw [h2 _ (mem_halfEdges.2 hp.1.lt)]] at this

/-- The section maps the image of a path back to the path. -/
theorem section_path (h : Closed dbg S) (h' : Closed dbg S') (hr : Renaming S S' σ) (hR : Deforms dbg S S' σ R)
    {R' : Combinatorial T} (hR' : R.inverse dbg = .ok R') {path path' : List Saddle} (hs : ∀ s ∈ path, IsSegment S s)
    (hc : Spec.Connected S path) (hp' : R.path dbg path = .ok path') :
    ∃ path'', R'.path dbg path' = .ok path'' ∧ S.pathEq path path'' = true := by
  obtain ⟨R'', τ, h1, h2, h3, h4⟩ := section_correct h h' hr hR
  rw [hR'] at h1; cases h1
  obtain ⟨p', g1, g2, g3, g4⟩ := C121.path_correct h h' hr hR hs hc
  rw [hp'] at g1; cases g1
  obtain ⟨p'', k1, k2, -⟩ := C121.path_correct h' h h3 h4 g3 g4
  refine ⟨p'', k1, ?_⟩
  clear hc hp' g3 g4 k1
  induction g2 generalizing p'' with
  | nil => cases k2; rfl
  | @cons s s' p p' i1 i2 ih =>
    cases k2 with
    | @cons _ s'' _ p'' j1 j2 =>
      unfold FlatTri.pathEq
      rw [Bool.and_eq_true]
      refine ⟨?_, ih (fun t ht => hs t (by simp [ht])) p'' j2⟩
      unfold FlatTri.saddleEq
      rw [Bool.and_eq_true, decide_eq_true_eq, decide_eq_true_eq]
      refine ⟨(j1.vector.trans i1.vector).symm, ?_⟩
      rw [j1.source, i1.source, h2 _ (mem_halfEdges.2 (hs s (by simp)).1.1)]

/-- `trivial()` says whether no half edge is renamed and no vector changes. -/
theorem trivial_correct (h : Closed dbg S) (h' : Closed dbg S') (hb : (S.tri.halfEdges.map σ).Perm S'.tri.halfEdges)
    (hR : Deforms dbg S S' σ R) :
    ∃ b, R.trivial = .ok b ∧ (b = true ↔ ∀ e ∈ S.tri.halfEdges, σ e = e ∧ S'.vec e = S.vec e) := by
  obtain ⟨ho, m, hm, h1⟩ := hR
  have hev : S.tri.size % 2 = 0 := h.shut.flat.coh.even
  rw [Combinatorial.make_spec dbg h.shut hm ho fun e he =>
    h'.shut.flat.odd _ (mem_halfEdges.1 (hb.mem_iff.1 (List.mem_map_of_mem he)))] at h1
  cases h1
  unfold Combinatorial.trivial
  dsimp only
  by_cases hv : ∀ e ∈ S.tri.halfEdges, S'.vec (σ e) = S.vec e
  · rw [decide_eq_true hv, Bool.not_true, if_neg (by simp), Combinatorial.fixes_spec hm _ (by
      intro e he
      obtain ⟨i, hi, rfl⟩ := List.mem_map.1 he
      have := List.mem_range.1 hi
      omega)]
    refine ⟨_, rfl, ?_⟩
    rw [decide_eq_true_eq]
    have hmem : ∀ i, 2 * i < S.tri.size → 2 * i ∈ (List.range (S.tri.size / 2)).map (2 * ·) := by
      intro i hi
      exact List.mem_map.2 ⟨i, List.mem_range.2 (by omega), rfl⟩
    constructor
    · intro hx e he
      have hσ : σ e = e := by
        have he' := mem_halfEdges.1 he
        by_cases hp : e % 2 = 0
        · have := hx (2 * (e / 2)) (hmem _ (by omega))
          rwa [show 2 * (e / 2) = e by omega] at this
        · have := hx (2 * (e / 2)) (hmem _ (by omega))
          have hd := neg_def e
          rw [if_neg hp] at hd
          rw [show 2 * (e / 2) = neg e by omega, ho e he] at this
          exact neg_inj'.1 this
      have := hv e he
      rw [hσ] at this
      exact ⟨hσ, this⟩
    · intro hx e he
      obtain ⟨i, hi, rfl⟩ := List.mem_map.1 he
      have := List.mem_range.1 hi
      exact (hx _ (mem_halfEdges.2 (by omega))).1
  · rw [decide_eq_false hv]
    refine ⟨false, rfl, ?_⟩
    simp only [Bool.false_eq_true, false_iff]
    intro hx
    apply hv
    intro e he
    rw [(hx e he).1, (hx e he).2]

/-- When vectors change, then points and paths are not mapped. -/
theorem refuses (h : Closed dbg S) (h' : Closed dbg S') (hb : (S.tri.halfEdges.map σ).Perm S'.tri.halfEdges)
    (hR : Deforms dbg S S' σ R) {e : HE} (he : e ∈ S.tri.halfEdges) (hv : S'.vec (σ e) ≠ S.vec e) (p : Point T)
    (path : List Saddle) : R.point dbg p = .error .logicError ∧ R.path dbg path = .error .logicError := by
  obtain ⟨ho, m, hm, h1⟩ := hR
  rw [Combinatorial.make_spec dbg h.shut hm ho fun e he =>
    h'.shut.flat.odd _ (mem_halfEdges.1 (hb.mem_iff.1 (List.mem_map_of_mem he))), decide_eq_false fun hx => hv (hx e he)] at h1
  cases h1
  exact ⟨rfl, rfl⟩

/-- The relabelled torus. -/
example : ∃ S' R R' p p' path', Closed true flatTorus ∧ Closed true S' ∧ Renaming flatTorus S' (perm [[0, 2, 4], [1, 3, 5]]).fwd ∧
    Deforms true flatTorus S' (perm [[0, 2, 4], [1, 3, 5]]).fwd R ∧ R.inverse true = .ok R' ∧
    C30.Created true flatTorus ⟨4, 1, 2, 0⟩ p ∧ R.point true p = .ok p' ∧ R.path true [Saddle.ofHalfEdge 0] = .ok path' := by
  have hc : Closed true flatTorus := ⟨torus_reachable true, flatTorus_isFlat, by decide +kernel⟩
  obtain ⟨S', R, -, -, h1, h2, h3⟩ := C121.relabel_correct (none : Option (Approx ℤ ℚ)) hc (r := perm [[0, 2, 4], [1, 3, 5]])
    (.ofCycles (cs := [[0, 2, 4], [1, 3, 5]]) rfl) (by decide +kernel) (by decide +kernel)
  obtain ⟨R', τ, h4, -⟩ := section_correct hc h1 h2 h3
  obtain ⟨p, h5, -⟩ := C30.point_accepts hc (d := ⟨4, 1, 2, 0⟩) ⟨by decide, by decide, by decide⟩
  obtain ⟨-, p', h6, -⟩ := C121.point_correct hc h1 h2 h3 h5
  obtain ⟨path', h7, -⟩ := C121.halfEdge_correct hc h1 h2 h3 (e := 0) (by decide)
  exact ⟨S', R, R', p, p', path', hc, h1, h2, h3, h4, h5, h6, h7⟩

/-- A deformation that doubles the torus. -/
example : ∃ S' R, Closed true S' ∧ Deforms true flatTorus S' id R ∧ S'.vec 0 ≠ flatTorus.vec 0 := by
  have hc : Closed true flatTorus := ⟨torus_reachable true, flatTorus_isFlat, by decide +kernel⟩
  obtain ⟨S', h1, h2, h3, h4, h5, h6⟩ := C22.scale_correct (none : Option (Approx ℤ ℚ)) hc.reachable hc.flat (n := 2) (by decide)
  have hb : S'.tri.hasBoundary = false := by
    have hT := hc.closed
    unfold Tri.hasBoundary at *
    rw [h4.halfEdges, show S'.tri.boundary = flatTorus.tri.boundary from funext h4.boundary]
    exact hT
  have hc' : Closed true S' := ⟨h2, h3, hb⟩
  have hm : TableOf flatTorus id (flatTorus.tri.halfEdges.map fun e => (e, id e)) := List.Perm.refl _
  refine ⟨S', _, hc', ⟨fun _ _ => rfl, _, hm, Combinatorial.make_spec true hc.shut hm (fun _ _ => rfl) fun e he =>
    hc'.shut.flat.odd _ ?_⟩, ?_⟩
  · rw [← mem_halfEdges, h4.halfEdges]
    exact he
  · rw [h5]
    decide

end Verif.C122
