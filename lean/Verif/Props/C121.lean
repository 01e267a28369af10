import Verif.Lemmas.CombinatorialDeformation
import Verif.Lemmas.Cone
import Verif.Props.C30

/-!
# C121: deformations that rename half edges map points and paths
-/

namespace Verif.C121

open Verif Spec Tri FlatTri Examples Vec

variable {T : Type} [CommRing T] [LinearOrder T] [IsStrictOrderedRing T]
variable {K : Type*} [Field K] [LinearOrder K] [IsStrictOrderedRing K]
variable {dbg : Bool} {S S' : FlatTri T} {σ : HE → HE} {R : Combinatorial T}

theorem deforms_eq (h : Closed dbg S) (h' : Closed dbg S') (hr : Renaming S S' σ) (hR : Deforms dbg S S' σ R) :
    ∃ m, TableOf S σ m ∧ R = ⟨S, S', m, true⟩ := by
  obtain ⟨-, m, hm, h1⟩ := hR
  rw [Combinatorial.make_spec dbg h.shut hm hr.opposite fun e he => h'.shut.flat.odd _ (hr.lt (mem_halfEdges.1 he))] at h1
  cases h1
  exact ⟨m, hm, by rw [decide_eq_true hr.vectors]⟩

/-- Relabelling a closed surface with a permutation that respects opposite half edges gives a deformation which renames half edges. -/
theorem relabel_correct (A : Option (Approx T K)) (h : Closed dbg S) {r : Perm} (hr : r.Reachable) (hs : r.size = S.tri.size)
    (hn : ∀ e ∈ S.tri.halfEdges, r.fwd (neg e) = neg (r.fwd e)) :
    ∃ S' R, S.relabel A dbg r = .ok S' ∧ Combinatorial.ofPerm A dbg S r = .ok R ∧ Closed dbg S' ∧ Renaming S S' r.fwd ∧
      Deforms dbg S S' r.fwd R := by
  obtain ⟨S', h1, h2, h3, h4, h5, -⟩ := C22.relabel_correct A h.reachable h.flat h.closed hr hs hn
  have hw := hr.wf
  have hsize : S'.tri.size = S.tri.size := by
    have := congrArg List.length h4
    simpa [Tri.halfEdges] using this
  have hlt : ∀ e < S.tri.size, r.fwd e < S.tri.size := fun e he => by rw [← hs] at *; exact hw.fwd_lt.2 he
  have hc : Closed dbg S' := by
    refine ⟨h2, h3, hasBoundary_false.2 fun x hx hb => ?_⟩
    have := (h5 (r.inv x)).2.1
    rw [hw.right, show S'.tri.nextInFace x = x from hb] at this
    have h6 : r.inv x < S.tri.size := by rw [hsize, ← hs] at hx; rw [← hs]; exact hw.inv_lt.2 hx
    refine h.shut.nb _ h6 (hw.inj (this.symm.trans ?_))
    rw [hw.right]
  have hren : Renaming S S' r.fwd := by
    refine ⟨?_, hn, fun e _ => (h5 e).2.1, fun e _ => (h5 e).1⟩
    rw [h4]
    refine List.Perm.symm ?_
    refine (List.subperm_of_subset List.nodup_range ?_).perm_of_length_le (by rw [List.length_map]; rfl)
    intro x hx
    have hx' := mem_halfEdges.1 hx
    refine List.mem_map.2 ⟨r.inv x, mem_halfEdges.2 ?_, hw.right x⟩
    rw [← hs] at *
    exact hw.inv_lt.2 hx'
  have hm : TableOf S r.fwd (.ofPerm r) := ofPerm_table hs
  have hmk := Combinatorial.make_spec dbg h.shut hm hn (C := S') fun e he => hc.shut.flat.odd _ (hren.lt (mem_halfEdges.1 he))
  refine ⟨S', _, h1, ?_, hc, hren, hn, _, hm, hmk⟩
  unfold Combinatorial.ofPerm
  rw [h1]
  exact hmk

/-- A point is mapped to the point with the same position with respect to the renamed half edges. -/
theorem point_correct (h : Closed dbg S) (h' : Closed dbg S') (hr : Renaming S S' σ) (hR : Deforms dbg S S' σ R) {δ p : Point T}
    (hp : C30.Created dbg S δ p) :
    ∃ δ' p', R.point dbg p = .ok p' ∧ C30.Created dbg S' δ' p' ∧ SamePosition S' (renamedPoint σ δ) δ' := by
  obtain ⟨m, hm, rfl⟩ := deforms_eq h h' hr hR
  obtain ⟨hn, hs⟩ := hp.normal h
  have hd : Describes S' (renamedPoint σ p) := ⟨hr.lt hn.lt, hn.nonneg, hn.pos⟩
  obtain ⟨p', h1, -⟩ := C30.point_accepts h' hd
  refine ⟨_, p', ?_, h1, (hr.same h.shut hs).2 hp.1.lt⟩
  have hc : S.coordinates p p.face = .ok (p.a, p.b, p.c) := by
    unfold FlatTri.coordinates pointIsIn sides rotated
    simp
  unfold Combinatorial.point
  dsimp only
  rw [Spec.TableOf.get hm hn.lt, hc]
  exact h1.2

/-- Renaming half edges does not change the position in the plane. -/
theorem image_in_plane (f : T →+* ℝ) (hr : Renaming S S' σ) (h : Closed dbg S) {δ : Point T} (hd : Describes S δ) :
    planePosition f S' (renamedPoint σ δ) = planePosition f S δ := by
  unfold planePosition renamedPoint
  dsimp only
  rw [hr.faces _ (mem_halfEdges.2 hd.lt), hr.vectors _ (mem_halfEdges.2 hd.lt),
    hr.vectors (S.tri.nextInFace δ.face) (mem_halfEdges.2 (h.shut.next_lt hd.lt))]

/-- A path is mapped to the path of the renamed segments. -/
theorem path_correct (h : Closed dbg S) (h' : Closed dbg S') (hr : Renaming S S' σ) (hR : Deforms dbg S S' σ R) {path : List Saddle}
    (hs : ∀ s ∈ path, IsSegment S s) (hc : Spec.Connected S path) :
    ∃ path', R.path dbg path = .ok path' ∧ List.Forall₂ (RenamedSegment S S' σ) path path' ∧ (∀ s ∈ path', IsSegment S' s) ∧
      Spec.Connected S' path' := by
  obtain ⟨m, hm, rfl⟩ := deforms_eq h h' hr hR
  obtain ⟨p', h1, h2, h3⟩ := Combinatorial.segments_spec dbg h.shut h'.shut hr hm true path hs
  have h4 := Combinatorial.connected_image h.shut h'.shut hr h2 hs (connected_chain.1 hc)
  refine ⟨p', ?_, h2, h3, connected_chain.2 h4⟩
  unfold Combinatorial.path
  rw [h1]
  exact Combinatorial.makePath_ok dbg h4

/-- The image of a half edge is the renamed half edge. -/
theorem halfEdge_correct (h : Closed dbg S) (h' : Closed dbg S') (hr : Renaming S S' σ) (hR : Deforms dbg S S' σ R) {e : HE}
    (he : e ∈ S.tri.halfEdges) :
    ∃ path', R.path dbg [Saddle.ofHalfEdge e] = .ok path' ∧ S'.imageHalfEdge (some path') = .ok (some (σ e)) := by
  have he' := mem_halfEdges.1 he
  have key : ∀ {S : FlatTri T}, S.Shut → ∀ {e}, e < S.tri.size → S.saddleVector (Saddle.ofHalfEdge e) = S.vec e := by
    intro S hS e he
    unfold saddleVector Saddle.ofHalfEdge
    rw [chainVector_bump hS.flat.coh.even hS.flat.odd _ he, show S.chainVector (fun _ => 0) = 0 from chainVector_zero S, zero_add]
  have hl : ∀ e < S.tri.size, LeavesCorner S e (S.vec e) := by
    intro e he
    have := (h.shut.flat.corner (h.shut.nb e he)).2
    refine ⟨he, by rw [cross_self], ?_⟩
    rw [cross_comm]
    exact neg_neg_of_pos this
  have hseg : IsSegment S (Saddle.ofHalfEdge e) := by
    unfold IsSegment
    rw [key h.shut he', ← h.shut.flat.odd e he']
    exact ⟨hl e he', hl (neg e) (h.shut.neg_lt he')⟩
  obtain ⟨p', h1, h2, -⟩ := path_correct h h' hr hR (path := [Saddle.ofHalfEdge e]) (by simpa using hseg) (by simp [Spec.Connected])
  refine ⟨p', h1, ?_⟩
  cases h2 with
  | cons a b =>
    cases b
    unfold FlatTri.imageHalfEdge
    dsimp only
    have hs := a.source
    rw [show (Saddle.ofHalfEdge e).source = e from rfl] at hs
    rw [if_pos, hs]
    unfold FlatTri.saddleEq
    rw [Bool.and_eq_true, decide_eq_true_eq, decide_eq_true_eq]
    refine ⟨?_, rfl⟩
    rw [a.vector, hs, key h'.shut (hr.lt he'), key h.shut he', hr.vectors e he]

/-- Half edges of the torus and a relabelling that rotates them. -/
example : Closed true flatTorus ∧ (perm [[0, 2, 4], [1, 3, 5]]).Reachable ∧ (perm [[0, 2, 4], [1, 3, 5]]).size = flatTorus.tri.size ∧
    ∀ e ∈ flatTorus.tri.halfEdges, (perm [[0, 2, 4], [1, 3, 5]]).fwd (neg e) = neg ((perm [[0, 2, 4], [1, 3, 5]]).fwd e) :=
  ⟨⟨torus_reachable true, flatTorus_isFlat, by decide +kernel⟩, .ofCycles (cs := [[0, 2, 4], [1, 3, 5]]) rfl, by decide +kernel,
    by decide +kernel⟩

/-- There is such a deformation of the torus. It maps a point and a path. -/
example : ∃ S' R, Closed true flatTorus ∧ Closed true S' ∧ Renaming flatTorus S' (perm [[0, 2, 4], [1, 3, 5]]).fwd ∧
    Deforms true flatTorus S' (perm [[0, 2, 4], [1, 3, 5]]).fwd R ∧ (∃ p, C30.Created true flatTorus ⟨4, 1, 2, 0⟩ p) ∧
    (∀ s ∈ [(⟨0, 1, fun i => if i = 0 ∨ i = 2 then 1 else 0⟩ : Saddle)], IsSegment flatTorus s) ∧
    Spec.Connected flatTorus [⟨0, 1, fun i => if i = 0 ∨ i = 2 then 1 else 0⟩] := by
  have hc : Closed true flatTorus := ⟨torus_reachable true, flatTorus_isFlat, by decide +kernel⟩
  obtain ⟨S', R, -, -, h1, h2, h3⟩ := relabel_correct (none : Option (Approx ℤ ℚ)) hc (r := perm [[0, 2, 4], [1, 3, 5]])
    (.ofCycles (cs := [[0, 2, 4], [1, 3, 5]]) rfl) (by decide +kernel) (by decide +kernel)
  refine ⟨S', R, hc, h1, h2, h3, ⟨_, ⟨by decide, by decide, by decide⟩, rfl⟩, ?_, by simp [Spec.Connected]⟩
  intro s hs
  rw [List.mem_singleton] at hs
  rw [hs]
  unfold IsSegment LeavesCorner
  decide

end Verif.C121
