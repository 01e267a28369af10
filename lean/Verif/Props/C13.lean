import Verif.Lemmas.TriOfFaces
import Verif.Props.C11

/-!
# C13: A triangulation can be rebuilt from its faces
-/

namespace Verif.C13

open Verif Spec Tri Examples C11

/-- The half edges of a list of triangles. -/
def halfEdgesOf (l : List (HE × HE × HE)) : List HE := l.flatMap fun f => [f.1, f.2.1, f.2.2]

/-- No half edge is used twice, and the edges that are used are the ones with ids `1, …, m`. -/
def Proper (l : List (HE × HE × HE)) (m : ℕ) : Prop :=
  (halfEdgesOf l).Nodup ∧ ∀ x, (x ∈ halfEdgesOf l ∨ neg x ∈ halfEdgesOf l) ↔ x < 2 * m

/-- A proper list of triangles gives a triangulation with exactly these faces. The sides that are not in any of the
triangles are on the boundary, and the triangles are only connected along sides. -/
theorem ofFaces_correct (dbg : Bool) {l : List (HE × HE × HE)} {m : ℕ} (h : Proper l m) :
    ∃ T, ofFaces dbg l = .ok T ∧ T.Reachable dbg ∧ IsTriangulation T ∧ VerticesCorrect T ∧
      T.halfEdges = List.range (2 * m) ∧ (∀ f ∈ l, IsFace T f.1 f.2.1 f.2.2) ∧
      (∀ x ∈ T.halfEdges, T.boundary x = true ↔ x ∉ halfEdgesOf l) ∧ SimpleBoundary T := by
  obtain ⟨T, h1, h2, h3, h4, h5, h6, h7⟩ := ofFaces_spec dbg (n := 2 * m) (by omega) h.1 h.2
  have hc := h2.inv.1
  refine ⟨T, h1, h2, h2.isTriangulation, h2.inv.2.verticesCorrect hc, by unfold halfEdges; rw [h3], ?_, ?_, ?_⟩
  · intro f hf
    obtain ⟨e1, e2, e3⟩ := h4 f hf
    have hm : f.1 ∈ used l := List.mem_flatMap.2 ⟨f, hf, by simp⟩
    have hn : f.1 < 2 * m := (h.2 f.1).1 (.inl hm)
    refine ⟨mem_halfEdges.2 (by rw [h3]; exact hn), ?_, e1, e2, e3⟩
    rw [boundary_false]
    exact fun hc => (h5 _ hn).1 hc hm
  · intro x hx
    rw [mem_halfEdges, h3] at hx
    rw [boundary_true]
    exact h5 x hx
  · intro x hx y hy hxb hyb ho
    rw [mem_halfEdges] at hx
    rw [boundary_true] at hxb hyb
    exact ofFaces_simple hc (by rw [h3]; exact h5) (by rw [h3]; exact h6) h7 hx hxb hyb ho

/-- Building a triangulation from the faces of a triangulation gives the same triangulation, provided that each edge is
in some face and nothing is connected only in a point. -/
theorem ofFaces_faces {dbg : Bool} {T : Tri} (h : T.Reachable dbg)
    (hb : ∀ x ∈ T.halfEdges, ¬ (T.boundary x = true ∧ T.boundary (neg x) = true)) (hs : SimpleBoundary T) :
    ∃ l T', T.facesList = some l ∧ ofFaces dbg l = .ok T' ∧ T'.beq T = true ∧ Same T T' := by
  have hc := h.inv.1
  obtain ⟨l, T', h1, h2, h3, h4, h5⟩ := ofFaces_facesList dbg hc
    (fun x hx hxb hxb' => hb x (mem_halfEdges.2 hx) ⟨boundary_true.2 hxb, boundary_true.2 hxb'⟩)
    (fun x y hx hxb hyb ho => hs x (mem_halfEdges.2 hx) y (mem_halfEdges.2 (ho.lt hc.hv hx)) (boundary_true.2 hxb)
      (boundary_true.2 hyb) ho)
  refine ⟨l, T', h1, h2, ?_, same_of_eq h h3 h4 h5⟩
  unfold beq Perm.beq
  rw [h4]
  exact beq_self_eq_true _

/-- Any surface without boundary is determined by its faces. -/
theorem ofFaces_faces_closed {dbg : Bool} {T : Tri} (h : T.Reachable dbg) (hb : T.hasBoundary = false) :
    ∃ l T', T.facesList = some l ∧ ofFaces dbg l = .ok T' ∧ T'.beq T = true ∧ Same T T' := by
  have hb' := hasBoundary_false.1 hb
  refine ofFaces_faces h ?_ ?_
  · rintro x hx ⟨hxb, -⟩
    exact hb' x (mem_halfEdges.1 hx) (boundary_true.1 hxb)
  · intro x hx y hy hxb
    exact absurd (boundary_true.1 hxb) (hb' x (mem_halfEdges.1 hx))

-- a square: two triangles glued along the edge 0
example : Proper [(0, 2, 4), (1, 6, 8)] 5 := by
  refine ⟨by decide, fun x => ?_⟩
  by_cases hx : x < 10
  · have : ∀ x < 10, x ∈ halfEdgesOf [(0, 2, 4), (1, 6, 8)] ∨ neg x ∈ halfEdgesOf [(0, 2, 4), (1, 6, 8)] := by decide
    exact iff_of_true (this x hx) hx
  · refine iff_of_false ?_ (by omega)
    have hn : ¬ neg x < 10 := fun h => hx ((neg_lt' (by decide) x).1 h)
    have hm : ∀ y ∈ halfEdgesOf [(0, 2, 4), (1, 6, 8)], y < 10 := by decide
    rintro (h | h)
    · exact hx (hm x h)
    · exact hn (hm _ h)

example : torus.Reachable true ∧ torus.hasBoundary = false ∧ torus.facesList.isSome := ⟨torus_reachable _, by decide, by decide⟩

example : square.Reachable true ∧ ∀ x ∈ square.halfEdges, ¬ (square.boundary x = true ∧ square.boundary (neg x) = true) :=
  ⟨square_reachable _, by decide⟩

example : ∃ T, ofFaces true [(0, 2, 4), (1, 6, 8)] = .ok T ∧ T.beq square = true := ⟨_, rfl, by decide⟩

end Verif.C13
