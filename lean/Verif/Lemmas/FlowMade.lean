import Verif.Lemmas.FlowMake
import Verif.Lemmas.Path

/-!
# Triangulations of flow components are flat triangulations
-/

namespace Verif.FlowTriangulation

open Verif Vec Spec C11 C13 FlatTri

variable {T : Type} [CommRing T] [LinearOrder T] [IsStrictOrderedRing T]
variable {K : Type*} [Field K] [LinearOrder K] [IsStrictOrderedRing K]

theorem mem_halfEdgesOf {F : List (HE × HE × HE)} {x : HE} :
    x ∈ halfEdgesOf F ↔ ∃ f ∈ F, x = f.1 ∨ x = f.2.1 ∨ x = f.2.2 := by
  unfold halfEdgesOf
  rw [List.mem_flatMap]
  simp

theorem Filled.surface (A : Option (Approx T K)) (dbg : Bool) {st : State T} {arcs : List (Arc T)} {st' : State T} {F}
    (h : Filled st arcs st' F) (hst : st.faces = []) (hok : st.vectors.OK) (hnd : (arcs.map Arc.he).Nodup)
    (hall : ∀ x, (x ∈ arcs.map Arc.he ∨ neg x ∈ arcs.map Arc.he) ↔ x < st.vectors.size) :
    ∃ C S, Tri.ofFaces dbg st'.faces = .ok C ∧ ofFunction A dbg C st'.vectors.get = .ok S ∧ S.tri.Reachable dbg ∧ IsFlat S ∧
      S.vec = st'.vectors.get ∧ S.tri.halfEdges = List.range st'.vectors.size ∧
      (∀ x ∈ S.tri.halfEdges, S.tri.boundary x = true ↔ x ∉ halfEdgesOf F) ∧ SimpleBoundary S.tri ∧ S.area2 = enclosed arcs := by
  have hF : st'.faces = F := by rw [h.faces, hst, List.nil_append]
  have hP := h.proper hok hnd hall
  have heven := h.ok.even
  have h2 : 2 * (st'.vectors.size / 2) = st'.vectors.size := by omega
  obtain ⟨C, c1, c2, c3, c4, c5, c6, c7, c8⟩ := ofFaces_correct dbg hP
  rw [h2] at c5
  have hcorner : ∀ x ∈ C.halfEdges, C.boundary x = false → ∃ y z, IsFace C x y z ∧ Triangle st'.vectors (x, y, z) := by
    intro x hx hb
    have hm : x ∈ halfEdgesOf F := by
      by_contra hm
      rw [(c7 x hx).2 hm] at hb
      cases hb
    obtain ⟨f, hf, hxf⟩ := mem_halfEdgesOf.1 hm
    have hi := c6 f hf
    have ht := h.triangle f hf
    obtain ⟨r1, r2⟩ := ht.rotate
    obtain ⟨-, -, i3, i4, i5⟩ := hi
    rcases hxf with rfl | rfl | rfl
    · exact ⟨f.2.1, f.2.2, ⟨hx, hb, i3, i4, i5⟩, ht⟩
    · refine ⟨f.2.2, f.1, ⟨hx, hb, i4, i5, i3⟩, ht.lt2, ht.lt3, ht.lt1, ?_, ?_⟩
      · have := ht.closed
        dsimp only
        rw [← this]; abel
      · dsimp only
        rw [r1]; exact ht.oriented
    · refine ⟨f.1, f.2.1, ⟨hx, hb, i5, i3, i4⟩, ht.lt3, ht.lt1, ht.lt2, ?_, ?_⟩
      · have := ht.closed
        dsimp only
        rw [← this]; abel
      · dsimp only
        rw [r2]; exact ht.oriented
  have hflat : IsFlat (⟨C, st'.vectors.get⟩ : FlatTri T) := by
    refine ⟨c3, fun e _ => h.ok.odd e, fun e he hb => ?_, fun e he hb => ?_⟩
    · obtain ⟨y, z, ⟨-, -, e1, e2, -⟩, ht⟩ := hcorner e he hb
      have := ht.closed
      dsimp only at this ⊢
      rw [e1, e2]
      exact this
    · obtain ⟨y, z, ⟨-, -, e1, e2, -⟩, ht⟩ := hcorner e he hb
      have := ht.oriented
      dsimp only at this ⊢
      rw [e1]
      exact this
  obtain ⟨S, s1, s2, s3, s4, s5⟩ := (C18.ofFunction_partial A c2 (f := st'.vectors.get) fun e _ => h.ok.odd e).1 hflat
  have hhe : S.tri.halfEdges = List.range st'.vectors.size := by rw [s3.halfEdges, c5]
  have hbd : ∀ x ∈ S.tri.halfEdges, S.tri.boundary x = true ↔ x ∉ halfEdgesOf F := by
    intro x hx
    rw [s3.boundary]
    exact c7 x (by rw [← s3.halfEdges]; exact hx)
  have hsb : SimpleBoundary S.tri := by
    intro x hx y hy hbx hby ho
    rw [s3.halfEdges] at hx hy
    rw [s3.boundary] at hbx hby
    refine c8 x hx y hy hbx hby ?_
    obtain ⟨n, hn⟩ := ho
    refine ⟨n, ?_⟩
    rw [← hn]
    congr 1
    funext e
    exact (s3.nextAtVertex e).symm
  refine ⟨C, S, by rw [hF]; exact c1, s1, s2, s4, s5, hhe, hbd, hsb, ?_⟩
  -- the area
  have hFl := IsFlat.flat s2 s4
  have hsum := hFl.area2_sum
  have hsize : S.tri.size = st'.vectors.size := by
    have := congrArg List.length hhe
    unfold Tri.halfEdges at this
    simpa using this
  have e1 : ∑ e ∈ Finset.range S.tri.size, S.faceArea e = ((halfEdgesOf F).map S.faceArea).sum := by
    rw [← List.sum_toFinset _ hP.1]
    refine (Finset.sum_subset (fun x hx => ?_) fun x hx hn => ?_).symm
    · rw [List.mem_toFinset] at hx
      rw [Finset.mem_range, hsize, ← h2]
      exact (hP.2 x).1 (.inl hx)
    · rw [List.mem_toFinset] at hn
      rw [Finset.mem_range] at hx
      have hb := (hbd x (Tri.mem_halfEdges.2 hx)).2 hn
      unfold faceArea
      rw [if_pos (Tri.boundary_true.1 hb)]
  have e2 : ∀ f ∈ F, S.faceArea f.1 = cross (st'.vectors.get f.1) (st'.vectors.get f.2.1) ∧
      S.faceArea f.2.1 = cross (st'.vectors.get f.1) (st'.vectors.get f.2.1) ∧
      S.faceArea f.2.2 = cross (st'.vectors.get f.1) (st'.vectors.get f.2.1) := by
    intro f hf
    obtain ⟨i1, i2, i3, i4, i5⟩ := c6 f hf
    have f3 : S.tri.faces.fwd f.1 = f.2.1 := (s3.nextInFace f.1).trans i3
    have f4 : S.tri.faces.fwd f.2.1 = f.2.2 := (s3.nextInFace f.2.1).trans i4
    have hb : ¬ S.tri.faces.fwd f.1 = f.1 := by
      intro hx
      have hb1 := Tri.boundary_true.2 hx
      rw [s3.boundary, i2] at hb1
      cases hb1
    have g1 : S.faceArea f.1 = cross (st'.vectors.get f.1) (st'.vectors.get f.2.1) := by
      unfold faceArea
      rw [if_neg hb, f3, s5]
    have g2 := hFl.faceArea_fwd f.1
    have g3 := hFl.faceArea_fwd f.2.1
    rw [f3] at g2
    rw [f4] at g3
    exact ⟨g1, g2.trans g1, (g3.trans g2).trans g1⟩
  have e3 : ((halfEdgesOf F).map S.faceArea).sum = 3 * covered st'.vectors F := by
    unfold covered halfEdgesOf
    clear * - e2
    induction F with
    | nil => simp
    | cons f F ih =>
      obtain ⟨g1, g2, g3⟩ := e2 f (by simp)
      rw [List.flatMap_cons, List.map_append, List.sum_append, ih fun f' hf' => e2 f' (by simp [hf']), List.map_cons, List.sum_cons]
      simp only [List.map_cons, List.map_nil, List.sum_cons, List.sum_nil, g1, g2, g3]
      ring
  have h3 : (3 : T) ≠ 0 := by norm_num
  refine mul_left_cancel₀ h3 ?_
  rw [hsum, e1, e3, h.area]

end Verif.FlowTriangulation
