import Verif.Lemmas.DelaunayCells
import Verif.Props.C131

/-!
C133: the search for an isomorphism that maps faces to faces.

C134: the search for an isomorphism that maps Delaunay cells to Delaunay cells.

C135: the search for an isomorphism when surfaces are not connected. Here, the property does not hold.
-/

set_option linter.unusedSectionVars false

namespace Verif.C133

open Verif Spec Tri FlatTri Examples

variable {T : Type} [CommRing T] [LinearOrder T] [IsStrictOrderedRing T]
variable {K : Type*} [Field K] [LinearOrder K] [IsStrictOrderedRing K]
variable {S S' : FlatTri T}

/-- A matrix and a bijection of the half edges such that the matrix turns the first surface into the second one. Both are restricted to
what the caller is interested in. -/
structure FaceIsomorphism (S S' : FlatTri T) (filterMatrix : T → T → T → T → Bool) (filterHalfEdgeMap : HE → HE → Bool)
    (M : Mat T) (σ : HE → HE) : Prop where
  map : Relabels S.tri S'.tri (decide (0 < M.det)) σ
  vec : ∀ x < S.tri.size, S'.vec (σ x) = M.apply (S.vec x)
  matrix : filterMatrix M.a M.b M.c M.d = true
  halfEdge : ∀ x < S.tri.size, filterHalfEdgeMap x (σ x) = true

theorem not_inner {x : HE} : ¬ Inner S .faces x := fun h => by cases h.1

theorem side_iff {x : HE} : CellSide S .faces x ↔ x < S.tri.size := ⟨fun h => h.1, fun h => ⟨h, not_inner⟩⟩

theorem nextSide_iff {x y : HE} : NextSide S .faces x y ↔ y = S.tri.previousAtVertex (neg x) := by
  constructor
  · rintro ⟨k, e1, -, e2⟩
    cases k with
    | zero => simpa using e1
    | succ k => exact absurd (e2 0 (Nat.succ_pos _)) not_inner
  · rintro rfl
    exact ⟨0, rfl, not_inner, by simp⟩

theorem properCells (h : S.Shut) (hc : ConnectedSurface S.tri) : ProperCells S .faces where
  nonempty := ⟨0, side_iff.2 hc.nonempty⟩
  path x y hx hy := by
    have key : ∀ z, Relation.ReflTransGen (fun a b => b = neg a ∨ b = S.tri.nextAtVertex a) x z →
        z < S.tri.size ∧ Relation.ReflTransGen (fun a b => b = neg a ∨ NextSide S .faces a b) x z := by
      intro z hz
      induction hz with
      | refl => exact ⟨hx.1, .refl⟩
      | tail _ hbc ih =>
        obtain ⟨hb, ih⟩ := ih
        rcases hbc with rfl | rfl
        · exact ⟨h.neg_lt hb, ih.tail (.inl rfl)⟩
        · refine ⟨h.around_lt true hb, ?_⟩
          have h1 := h.next_lt hb
          refine ((ih.tail (.inr (nextSide_iff.2 (previous_eq h hb).symm))).tail (.inr (nextSide_iff.2 (previous_eq h h1).symm))).tail (.inl ?_)
          exact (neg_neg' _).symm.trans (congrArg neg (SaddleSearch.prev_eq h hb))
    exact (key y (hc.path x hx.1 y hy.1)).2
  corner x y hx hy := by
    rw [nextSide_iff.1 hy, previous_eq h hx.1]
    exact h.flat.oriented x (h.nb x hx.1)

theorem cellMap_iff (h : S.Shut) (h' : S'.Shut) {preserving : Bool} {σ : HE → HE} :
    CellMap S S' .faces preserving σ ↔ Relabels S.tri S'.tri preserving σ := by
  have hl : ∀ x, S.tri.previousAtVertex (S.tri.nextAtVertex x) = x := h.flat.coh.hv.left
  have hr : ∀ x, S.tri.nextAtVertex (S.tri.previousAtVertex x) = x := h.flat.coh.hv.right
  have hl' : ∀ x, S'.tri.previousAtVertex (S'.tri.nextAtVertex x) = x := h'.flat.coh.hv.left
  have hr' : ∀ x, S'.tri.nextAtVertex (S'.tri.previousAtVertex x) = x := h'.flat.coh.hv.right
  constructor
  · intro hm
    refine ⟨fun x hx => (hm.side x (side_iff.2 hx)).1, fun x hx y hy => hm.inj x y (side_iff.2 hx) (side_iff.2 hy), fun y hy => ?_,
      fun x hx => hm.opposite x (side_iff.2 hx), fun x hx => ?_⟩
    · obtain ⟨x, hx, e⟩ := hm.surj y (side_iff.2 hy)
      exact ⟨x, hx.1, e⟩
    · have hz : neg (S.tri.nextAtVertex x) < S.tri.size := h.neg_lt (h.around_lt true hx)
      have hn := hm.next (neg (S.tri.nextAtVertex x)) x (side_iff.2 hz) (nextSide_iff.2 (by rw [neg_neg', hl]))
      have ho := hm.opposite _ (side_iff.2 hz)
      rw [neg_neg'] at ho
      cases preserving with
      | true =>
        simp only [if_true] at hn ⊢
        rw [nextSide_iff.1 hn, ← ho, hr']
      | false =>
        simp only [Bool.false_eq_true, if_false] at hn ⊢
        rw [ho, nextSide_iff.1 hn, neg_neg']
  · intro hm
    refine ⟨fun x hx => side_iff.2 (hm.lt x hx.1), fun x y hx hy => hm.inj x hx.1 y hy.1, fun y hy => ?_, fun x hx => hm.neg x hx.1,
      fun x y hx hy => ?_⟩
    · obtain ⟨x, hx, e⟩ := hm.surj y hy.1
      exact ⟨x, side_iff.2 hx, e⟩
    · rw [nextSide_iff] at hy
      subst hy
      have hz := h.around_lt false (h.neg_lt hx.1)
      have hv := hm.vertex (S.tri.previousAtVertex (neg x)) hz
      rw [hr, hm.neg x hx.1] at hv
      cases preserving with
      | true =>
        simp only [if_true] at hv ⊢
        rw [nextSide_iff, hv, hl']
      | false =>
        simp only [Bool.false_eq_true, if_false] at hv ⊢
        rw [nextSide_iff, hv, neg_neg']

theorem faceIsomorphism_iff (h : S.Shut) (h' : S'.Shut) {fm : T → T → T → T → Bool} {fh : HE → HE → Bool} {M : Mat T} {σ : HE → HE} :
    CellIsomorphism S S' .faces fm fh M σ ↔ FaceIsomorphism S S' fm fh M σ :=
  ⟨fun e => ⟨(cellMap_iff h h').1 e.map, fun x hx => e.vec x (side_iff.2 hx), e.matrix, fun x hx => e.halfEdge x (side_iff.2 hx)⟩,
    fun e => ⟨(cellMap_iff h h').2 e.map, fun x hx => e.vec x hx.1, e.matrix, fun x hx => e.halfEdge x hx.1⟩⟩

/-- The search reports nothing exactly if there is no isomorphism. What is reported comes from an isomorphism: a linear map by its
matrix, and a half edge with its image. -/
theorem isomorphism_faces {div : T → T → Option T} (hdiv : TrueDivision div) (A : Option (Approx T K)) {dbg : Bool} (h : Closed dbg S)
    (hc : ConnectedSurface S.tri) (h' : Closed dbg S') (hc' : ConnectedSurface S'.tri) (filterMatrix : T → T → T → T → Bool)
    (filterHalfEdgeMap : HE → HE → Bool) :
    ∃ N, ∀ fuel ≥ N, ∃ r, isomorphism div A dbg fuel S S' .faces filterMatrix filterHalfEdgeMap = some (.ok r) ∧
      (r = none ↔ ¬ ∃ M σ, FaceIsomorphism S S' filterMatrix filterHalfEdgeMap M σ) ∧
      ∀ d, r = some d → S.applyMatrix A dbg d.matrix.a d.matrix.b d.matrix.c d.matrix.d = .ok d.linear ∧ d.preimage ∈ S.tri.halfEdges ∧
        ∃ σ, FaceIsomorphism S S' filterMatrix filterHalfEdgeMap d.matrix σ ∧ d.image = σ d.preimage := by
  by_cases hsize : S.tri.size = S'.tri.size
  · have hcover : ∀ (M : Mat T) σ, M.det ≠ 0 → CellCover S S' .faces (decide (0 < M.det)) σ →
        (∀ x, CellSide S .faces x → S'.vec (σ x) = M.apply (S.vec x)) → ∀ x y, CellSide S .faces x → CellSide S .faces y → σ x = σ y → x = y := by
      intro M σ _ hσ _ x y hx hy
      have hinj := Finset.injOn_of_surjOn_of_card_le (s := Finset.range S.tri.size) (t := Finset.range S'.tri.size) σ
        (fun a ha => by simpa using (hσ.side a (side_iff.2 (by simpa using ha))).1)
        (fun y hy => by
          obtain ⟨x, hx, e⟩ := hσ.surj y (side_iff.2 (by simpa using hy))
          exact ⟨x, by simpa using hx.1, e⟩) (by simp [hsize])
      exact fun e => hinj (by simpa using hx.1) (by simpa using hy.1) e
    obtain ⟨N, hN⟩ := isomorphism_cells A h h' hdiv (properCells h.shut hc) (properCells h'.shut hc') hsize hcover
      (fun _ e => by cases e) filterMatrix filterHalfEdgeMap
    refine ⟨N, fun fuel hf => ?_⟩
    obtain ⟨r, e1, e2, e3⟩ := hN fuel hf
    simp only [faceIsomorphism_iff h.shut h'.shut] at e2 e3
    exact ⟨r, e1, e2, fun d hd => ⟨(e3 d hd).1, mem_halfEdges.2 (e3 d hd).2.1.1, (e3 d hd).2.2⟩⟩
  · refine ⟨0, fun fuel _ => ⟨none, ?_, ?_, by simp⟩⟩
    · unfold isomorphism
      rw [if_neg (by rw [h.closed, h'.closed]; simp), if_pos (by
        unfold Tri.halfEdges
        rwa [List.length_range, List.length_range])]
    · simp only [true_iff]
      rintro ⟨M, σ, hσ⟩
      refine hsize (le_antisymm ?_ ?_)
      · have := Finset.card_le_card_of_injOn (s := Finset.range S.tri.size) (t := Finset.range S'.tri.size) σ
          (fun x hx => by simpa using hσ.map.lt x (by simpa using hx))
          (fun x hx y hy e => hσ.map.inj x (by simpa using hx) y (by simpa using hy) e)
        simpa using this
      · have := Finset.card_le_card_of_surjOn (s := Finset.range S.tri.size) (t := Finset.range S'.tri.size) σ
          (fun y hy => by
            obtain ⟨x, hx, e⟩ := hσ.map.surj y (by simpa using hy)
            exact ⟨x, by simpa using hx, e⟩)
        simpa using this

/-- Two surfaces that satisfy the hypotheses. -/
example : Closed true flatTorus ∧ ConnectedSurface flatTorus.tri ∧ Closed true C131.sheared ∧ ConnectedSurface C131.sheared.tri ∧
    TrueDivision C31.intDiv := ⟨C30.flatTorus_closed, C37.torus_connected, C131.sheared_closed, C37.torus_connected, C31.intDiv_true⟩

instance : DecidableEq (Option ((ℤ × ℤ × ℤ × ℤ) × HE × HE)) := inferInstance

/-- What is reported. -/
def answer (r : Option (Except Err (Option (FoundIsomorphism ℤ)))) : Option (Except Err (Option ((ℤ × ℤ × ℤ × ℤ) × HE × HE))) :=
  r.map fun r => r.map fun r => r.map fun d => ((d.matrix.a, d.matrix.b, d.matrix.c, d.matrix.d), d.preimage, d.image)

/-- Without filter, with matrices that do not preserve the orientation only, and with matrices that are diagonal only. -/
example :
    answer (isomorphism C31.intDiv (none : Option (Approx ℤ ℚ)) true 20 flatTorus C131.sheared .faces (fun _ _ _ _ => true) fun _ _ => true) =
      some (.ok (some ((2, 1, 1, 1), 0, 0))) ∧
    answer (isomorphism C31.intDiv (none : Option (Approx ℤ ℚ)) true 20 flatTorus C131.sheared .faces (fun a b c d => a * d < b * c)
      fun _ _ => true) = some (.ok (some ((2, -3, 1, -2), 0, 0))) ∧
    answer (isomorphism C31.intDiv (none : Option (Approx ℤ ℚ)) true 20 flatTorus C131.sheared .faces (fun _ b c _ => b = 0 ∧ c = 0)
      fun _ _ => true) = some (.ok none) := by
  decide +kernel

end Verif.C133

namespace Verif.C134

open Verif Spec Tri FlatTri Examples

variable {T : Type} [CommRing T] [LinearOrder T] [IsStrictOrderedRing T]
variable {K : Type*} [Field K] [LinearOrder K] [IsStrictOrderedRing K]
variable {S S' : FlatTri T}

theorem size_eq (h : S.Shut) (hc : ConnectedSurface S.tri) (h' : S'.Shut) (hc' : ConnectedSurface S'.tri)
    {fm : T → T → T → T → Bool} {fh : HE → HE → Bool} {M : Mat T} {σ : HE → HE} (hσ : CellIsomorphism S S' .delaunayCells fm fh M σ) :
    S.tri.size = S'.tri.size := by
  have hp := delaunayCells_proper h hc
  have hp' := delaunayCells_proper h' hc'
  refine cells_size h h' hp' (fun hM => ?_) hσ.map hσ.vec
  obtain ⟨y, hy⟩ := hp.nonempty
  obtain ⟨x, hx, hxy⟩ := nextSide_surj h hy
  have hn := hσ.map.next x y hx hxy
  simp only [hM, lt_irrefl, decide_false, Bool.false_eq_true, if_false] at hn
  have hpos := hp'.corner _ _ (cellSide_neg h' (hσ.map.side y hy)) hn
  rw [h'.flat.odd _ (hσ.map.side y hy).1, h'.flat.odd _ (hσ.map.side x hx).1, hσ.vec x hx, hσ.vec y hy] at hpos
  have : Vec.cross (-M.apply (S.vec y)) (-M.apply (S.vec x)) = M.det * Vec.cross (S.vec y) (S.vec x) := by
    unfold Mat.apply Vec.applyMatrix Mat.det Vec.cross
    simp only [Vec.neg_x, Vec.neg_y]
    ring
  rw [this, hM, zero_mul] at hpos
  exact lt_irrefl _ hpos

/-- The search reports nothing exactly if there is no isomorphism. What is reported comes from an isomorphism: a linear map by its
matrix, and a half edge with its image. -/
theorem isomorphism_cells {div : T → T → Option T} (hdiv : TrueDivision div) (A : Option (Approx T K)) {dbg : Bool} (h : Closed dbg S)
    (hc : ConnectedSurface S.tri) (h' : Closed dbg S') (hc' : ConnectedSurface S'.tri)
    (hdelaunay : ∀ e ∈ S.tri.edges, S.delaunayAt e ≠ .nonDelaunay) (hdelaunay' : ∀ e ∈ S'.tri.edges, S'.delaunayAt e ≠ .nonDelaunay)
    (filterMatrix : T → T → T → T → Bool) (filterHalfEdgeMap : HE → HE → Bool) :
    ∃ N, ∀ fuel ≥ N, ∃ r, isomorphism div A dbg fuel S S' .delaunayCells filterMatrix filterHalfEdgeMap = some (.ok r) ∧
      (r = none ↔ ¬ ∃ M σ, CellIsomorphism S S' .delaunayCells filterMatrix filterHalfEdgeMap M σ) ∧
      ∀ d, r = some d → S.applyMatrix A dbg d.matrix.a d.matrix.b d.matrix.c d.matrix.d = .ok d.linear ∧ CellSide S .delaunayCells d.preimage ∧
        ∃ σ, CellIsomorphism S S' .delaunayCells filterMatrix filterHalfEdgeMap d.matrix σ ∧ d.image = σ d.preimage := by
  by_cases hsize : S.tri.size = S'.tri.size
  · have hp' := delaunayCells_proper h'.shut hc'
    exact FlatTri.isomorphism_cells A h h' hdiv (delaunayCells_proper h.shut hc) hp' hsize
      (fun M σ hM hσ hv => cover_injective h.shut h'.shut hp' hsize hM hσ hv) (fun _ _ => ⟨hdelaunay, hdelaunay'⟩) filterMatrix filterHalfEdgeMap
  · refine ⟨0, fun fuel _ => ⟨none, ?_, ?_, by simp⟩⟩
    · unfold isomorphism
      rw [if_neg (by rw [h.closed, h'.closed]; simp), if_pos (by
        unfold Tri.halfEdges
        rwa [List.length_range, List.length_range])]
    · simp only [true_iff]
      rintro ⟨M, σ, hσ⟩
      exact hsize (size_eq h.shut hc h'.shut hc' hσ)

/-- If debug assertions are enabled, then surfaces that are not Delaunay triangulated are rejected. -/
theorem rejected (div : T → T → Option T) (A : Option (Approx T K)) (h : Closed true S) (h' : Closed true S') (hsize : S.tri.size = S'.tri.size)
    (hd : (∃ e ∈ S.tri.edges, S.delaunayAt e = .nonDelaunay) ∨ ∃ e ∈ S'.tri.edges, S'.delaunayAt e = .nonDelaunay)
    (filterMatrix : T → T → T → T → Bool) (filterHalfEdgeMap : HE → HE → Bool) (fuel : ℕ) :
    isomorphism div A true fuel S S' .delaunayCells filterMatrix filterHalfEdgeMap = some (.error .logicError) := by
  unfold isomorphism
  rw [if_neg (by rw [h.closed, h'.closed]; simp), if_neg (by
    unfold Tri.halfEdges
    rw [List.length_range, List.length_range, hsize]
    simp), if_neg (by rw [h.closed]; simp)]
  have key : ∀ U : FlatTri T, (∃ e ∈ U.tri.edges, U.delaunayAt e = .nonDelaunay) →
      (true && decide (IsomorphismKind.delaunayCells = .delaunayCells) &&
        !(U.tri.edges.all fun e => decide (U.delaunayAt e ≠ .nonDelaunay))) = true := by
    rintro U ⟨e, e1, e2⟩
    simp only [decide_true, Bool.true_and, Bool.not_eq_true', ← Bool.not_eq_true, List.all_eq_true]
    intro hall
    simpa [e2] using hall e e1
  rcases hd with hd | hd
  · rw [if_pos (key S hd)]
  · rw [if_pos (key S' hd)]
    exact ite_self _

/-- A square torus with the other diagonal. -/
def turned : FlatTri ℤ := ⟨torus, listed [⟨0, 1⟩, ⟨-1, 0⟩, ⟨-1, 1⟩]⟩

theorem turned_closed : Closed true turned :=
  ⟨torus_reachable true,
    (isFlat_of_check (none : Option (Approx ℤ ℚ)) (torus_reachable true) fun e _ => listed_neg _ e).1 (by decide +kernel), by decide⟩

/-- Surfaces that satisfy the hypotheses. -/
example : Closed true flatTorus ∧ ConnectedSurface flatTorus.tri ∧ Closed true turned ∧ ConnectedSurface turned.tri ∧
    (∀ e ∈ flatTorus.tri.edges, flatTorus.delaunayAt e ≠ .nonDelaunay) ∧ (∀ e ∈ turned.tri.edges, turned.delaunayAt e ≠ .nonDelaunay) ∧
    TrueDivision C31.intDiv :=
  ⟨C30.flatTorus_closed, C37.torus_connected, turned_closed, C37.torus_connected, by decide +kernel, by decide +kernel, C31.intDiv_true⟩

/-- There is a translation that maps Delaunay cells to Delaunay cells. There is no translation that maps faces to faces. -/
example :
    C133.answer (isomorphism C31.intDiv (none : Option (Approx ℤ ℚ)) true 20 flatTorus turned .delaunayCells
      (fun a b c d => a = 1 ∧ b = 0 ∧ c = 0 ∧ d = 1) fun _ _ => true) = some (.ok (some ((1, 0, 0, 1), 0, 3))) ∧
    C133.answer (isomorphism C31.intDiv (none : Option (Approx ℤ ℚ)) true 20 flatTorus turned .faces
      (fun a b c d => a = 1 ∧ b = 0 ∧ c = 0 ∧ d = 1) fun _ _ => true) = some (.ok none) := by
  decide +kernel

/-- A surface that is rejected. -/
example : ∃ e ∈ C131.sheared.tri.edges, C131.sheared.delaunayAt e = .nonDelaunay := by decide +kernel

end Verif.C134

namespace Verif.C135

open Verif Spec Tri FlatTri Examples

/-- Two tori. -/
def twoTori : Tri := tri [[0, 4, 2, 1, 5, 3], [6, 10, 8, 7, 11, 9]] []

theorem twoTori_make (dbg : Bool) : make dbg (perm [[0, 4, 2, 1, 5, 3], [6, 10, 8, 7, 11, 9]]) [] = .ok twoTori := by cases dbg <;> rfl

theorem twoTori_reachable (dbg : Bool) : twoTori.Reachable dbg :=
  .make (.ofCycles (cs := [[0, 4, 2, 1, 5, 3], [6, 10, 8, 7, 11, 9]]) rfl) (twoTori_make dbg)

/-- Two square tori of the same size. -/
def same : FlatTri ℤ := ⟨twoTori, listed [⟨1, 0⟩, ⟨0, 1⟩, ⟨1, 1⟩, ⟨1, 0⟩, ⟨0, 1⟩, ⟨1, 1⟩]⟩

/-- Two square tori of different size. -/
def different : FlatTri ℤ := ⟨twoTori, listed [⟨1, 0⟩, ⟨0, 1⟩, ⟨1, 1⟩, ⟨2, 0⟩, ⟨0, 2⟩, ⟨2, 2⟩]⟩

theorem same_closed : Closed true same :=
  ⟨twoTori_reachable true,
    (isFlat_of_check (none : Option (Approx ℤ ℚ)) (twoTori_reachable true) fun e _ => listed_neg _ e).1 (by decide +kernel), by decide⟩

theorem different_closed : Closed true different :=
  ⟨twoTori_reachable true,
    (isFlat_of_check (none : Option (Approx ℤ ℚ)) (twoTori_reachable true) fun e _ => listed_neg _ e).1 (by decide +kernel), by decide⟩

/-- If surfaces are not connected, then an isomorphism is reported although there is none. -/
theorem not_isomorphic : Closed true same ∧ Closed true different ∧
    (∀ dbg, C133.answer (isomorphism C31.intDiv (none : Option (Approx ℤ ℚ)) dbg 30 same different .faces (fun _ _ _ _ => true) fun _ _ => true) =
      some (.ok (some ((1, 0, 0, 1), 0, 0)))) ∧
    ¬ ∃ M σ, C133.FaceIsomorphism same different (fun _ _ _ _ => true) (fun _ _ => true) M σ := by
  refine ⟨same_closed, different_closed, by decide +kernel, ?_⟩
  rintro ⟨M, σ, hσ⟩
  have h1 : ∀ x < same.tri.size, same.tri.nextAtVertex x < same.tri.size ∧
      Vec.cross (same.vec x) (same.vec (same.tri.nextAtVertex x)) = 1 := by decide +kernel
  have h2 : ∀ y < different.tri.size, Vec.cross (different.vec y) (different.vec (different.tri.nextAtVertex y)) = (if y < 6 then 1 else 4) ∧
      Vec.cross (different.vec y) (different.vec (different.tri.previousAtVertex y)) = (if y < 6 then -1 else -4) := by decide +kernel
  have key : ∀ x < same.tri.size, M.det = if 0 < M.det then (if σ x < 6 then 1 else 4) else (if σ x < 6 then -1 else -4) := by
    intro x hx
    have e1 := hσ.vec x hx
    have e2 := hσ.vec _ (h1 x hx).1
    have e3 := hσ.map.vertex x hx
    have e4 : Vec.cross (different.vec (σ x)) (different.vec (σ (same.tri.nextAtVertex x))) = M.det := by
      rw [e1, e2]
      have : Vec.cross (M.apply (same.vec x)) (M.apply (same.vec (same.tri.nextAtVertex x))) =
          M.det * Vec.cross (same.vec x) (same.vec (same.tri.nextAtVertex x)) := by
        unfold Mat.apply Vec.applyMatrix Mat.det Vec.cross
        ring
      rw [this, (h1 x hx).2, mul_one]
    rw [e3] at e4
    obtain ⟨f1, f2⟩ := h2 _ (hσ.map.lt x hx)
    by_cases hd : 0 < M.det
    · simp only [hd, decide_true, if_true] at e4 ⊢
      rw [← e4, f1]
    · simp only [hd, decide_false, Bool.false_eq_true, if_false] at e4 ⊢
      rw [← e4, f2]
  obtain ⟨x, hx, ex⟩ := hσ.map.surj 0 (by decide)
  obtain ⟨y, hy, ey⟩ := hσ.map.surj 6 (by decide)
  have k1 := key x hx
  have k2 := key y hy
  rw [ex] at k1
  rw [ey] at k2
  split_ifs at k1 k2 <;> omega

/-- If surfaces are connected, then isomorphisms are only reported if there are some. (Missing: surfaces that are not connected, see
`not_isomorphic`.) -/
theorem sound_partial {T : Type} [CommRing T] [LinearOrder T] [IsStrictOrderedRing T] {K : Type*} [Field K] [LinearOrder K]
    [IsStrictOrderedRing K] {S S' : FlatTri T} {div : T → T → Option T} (hdiv : TrueDivision div) (A : Option (Approx T K)) {dbg : Bool}
    (h : Closed dbg S) (hc : ConnectedSurface S.tri) (h' : Closed dbg S') (hc' : ConnectedSurface S'.tri)
    (filterMatrix : T → T → T → T → Bool) (filterHalfEdgeMap : HE → HE → Bool) :
    ∃ N, ∀ fuel ≥ N, ∀ d, isomorphism div A dbg fuel S S' .faces filterMatrix filterHalfEdgeMap = some (.ok (some d)) →
      ∃ σ, C133.FaceIsomorphism S S' filterMatrix filterHalfEdgeMap d.matrix σ := by
  obtain ⟨N, hN⟩ := C133.isomorphism_faces hdiv A h hc h' hc' filterMatrix filterHalfEdgeMap
  refine ⟨N, fun fuel hf d hd => ?_⟩
  obtain ⟨r, e1, -, e3⟩ := hN fuel hf
  rw [hd] at e1
  simp only [Option.some.injEq, Except.ok.injEq] at e1
  obtain ⟨σ, hσ, -⟩ := (e3 d e1.symm).2.2
  exact ⟨σ, hσ⟩

end Verif.C135
