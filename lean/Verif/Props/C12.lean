import Verif.Lemmas.Collapse
import Verif.Lemmas.TriSpec
import Verif.Lemmas.FlatExamples
import Mathlib.Tactic.Linarith

/-!
# C12: collapse removes exactly one edge and two faces

# C97: collapse never produces something which is not a triangulation
-/

namespace Verif.C12

open Verif Spec Tri Examples

/-- Collapsing an edge of a surface gives the surface in which the edge and the two faces next to it are gone and the other two sides of
each of these faces have been identified, with three edges less. The half edges returned are the sides at the source of `e` as they
are called in the collapsed surface. -/
theorem collapse_correct {dbg : Bool} {T : Tri} (h : T.Reachable dbg) {e : HE} (hc : Collapsible T e) :
    ∃ T' ψ, T.collapse dbg e = .ok (T', ψ (neg (T.previousInFace e)), ψ (T.nextInFace (neg e))) ∧ Collapses T e T' ψ ∧
      T'.Reachable dbg ∧ IsTriangulation T' ∧ VerticesCorrect T' ∧ T'.hasBoundary = false ∧ T'.edges.length + 3 = T.edges.length := by
  obtain ⟨T', ψ, h1, h2, h3, h4, h5⟩ := collapse_spec dbg h.inv.1 hc
  refine ⟨T', ψ, h1, h2, h3, h3.isTriangulation, h3.inv.2.verticesCorrect h3.inv.1, h5, ?_⟩
  have k1 := h.inv.1.edges_length
  have k2 := h3.inv.1.edges_length
  omega

variable {T : Type} [CommRing T] [LinearOrder T] [IsStrictOrderedRing T]

/-- Every edge of a closed flat surface can be collapsed, unless the two faces next to it form a torus. -/
theorem flat_collapsible {dbg : Bool} {S : FlatTri T} (h : Closed dbg S) {e : HE} (he : e ∈ S.tri.halfEdges)
    (ht : ¬ (S.tri.nextInFace (neg e) = neg (S.tri.nextInFace e) ∧ S.tri.previousInFace (neg e) = neg (S.tri.previousInFace e))) :
    Collapsible S.tri e := by
  have hc := h.reachable.inv.1
  have hprev : ∀ z, S.tri.nextInFace (S.tri.nextInFace z) = S.tri.previousInFace z := fun z => hc.hf.inj (by
    show S.tri.faces.fwd (S.tri.faces.fwd (S.tri.faces.fwd z)) = S.tri.faces.fwd (S.tri.faces.inv z)
    rw [hc.tri, hc.hf.right])
  have hlt := mem_halfEdges.1 he
  have hlt' : neg e < S.tri.size := (neg_lt' hc.even e).2 hlt
  have nb : ∀ z < S.tri.size, S.tri.boundary z = false := fun z hz => boundary_false.2 (hasBoundary_false.1 h.closed z hz)
  have hx : S.tri.nextInFace e < S.tri.size := by have := hc.hf.fwd_lt.2 (by rw [hc.hs]; exact hlt : e < S.tri.faces.size); rwa [hc.hs] at this
  have hu : S.tri.previousInFace (neg e) < S.tri.size := by
    have := hc.hf.inv_lt.2 (by rw [hc.hs]; exact hlt' : neg e < S.tri.faces.size); rwa [hc.hs] at this
  have ht' : S.tri.previousInFace e < S.tri.size := by
    have := hc.hf.inv_lt.2 (by rw [hc.hs]; exact hlt : e < S.tri.faces.size); rwa [hc.hs] at this
  have o : ∀ z < S.tri.size, S.vec (neg z) = -S.vec z := fun z hz => h.flat.odd z (mem_halfEdges.2 hz)
  have c1 := h.flat.closed e he (nb e hlt)
  have c2 := h.flat.closed (neg e) (mem_halfEdges.2 hlt') (nb _ hlt')
  have t1 := h.flat.oriented e he (nb e hlt)
  have t2 := h.flat.oriented (neg e) (mem_halfEdges.2 hlt') (nb _ hlt')
  rw [hprev] at c1 c2
  rw [o e hlt] at c2 t2
  have c1x := congrArg Vec.x c1
  have c1y := congrArg Vec.y c1
  have c2x := congrArg Vec.x c2
  have c2y := congrArg Vec.y c2
  simp only [Vec.add_x, Vec.add_y, Vec.neg_x, Vec.neg_y, Vec.zero_x, Vec.zero_y] at c1x c1y c2x c2y
  simp only [Vec.cross, Vec.neg_x, Vec.neg_y] at t1 t2
  refine ⟨he, h.closed, ?_, ?_, ?_, ?_, ?_, ht⟩
  · rintro (k | k | k)
    · exact neg_ne e k
    · have := o e hlt
      rw [k] at this
      rw [this] at t1
      simp only [Vec.neg_x, Vec.neg_y] at t1
      linarith
    · have := o e hlt
      rw [k] at this
      rw [this] at c1x c1y
      simp only [Vec.neg_x, Vec.neg_y] at c1x c1y
      rw [show (S.vec (S.tri.nextInFace e)).x = 0 by linarith, show (S.vec (S.tri.nextInFace e)).y = 0 by linarith] at t1
      linarith
  · intro k
    rw [k, o _ ht'] at c1x c1y t1
    simp only [Vec.neg_x, Vec.neg_y] at c1x c1y
    rw [show (S.vec e).x = 0 by linarith, show (S.vec e).y = 0 by linarith] at t1
    linarith
  · intro k
    rw [k, o _ hu] at c2x c2y t2
    simp only [Vec.neg_x, Vec.neg_y] at c2x c2y
    rw [show (S.vec e).x = 0 by linarith, show (S.vec e).y = 0 by linarith] at t2
    linarith
  · intro k
    rw [k, o _ ht'] at t2
    simp only [Vec.neg_x, Vec.neg_y] at t2
    rw [show (S.vec (S.tri.previousInFace e)).x = -(S.vec e).x - (S.vec (S.tri.nextInFace e)).x by linarith,
      show (S.vec (S.tri.previousInFace e)).y = -(S.vec e).y - (S.vec (S.tri.nextInFace e)).y by linarith] at t2
    linarith
  · intro k
    rw [k, o _ hu] at t1
    simp only [Vec.neg_x, Vec.neg_y] at t1
    rw [show (S.vec (S.tri.previousInFace (neg e))).x = (S.vec e).x - (S.vec (S.tri.nextInFace (neg e))).x by linarith,
      show (S.vec (S.tri.previousInFace (neg e))).y = (S.vec e).y - (S.vec (S.tri.nextInFace (neg e))).y by linarith] at t1
    linarith

/-- The diagonal of a square of an L shaped surface is collapsed. -/
example : Closed true flatEll ∧ Collapsible ell 12 ∧ (∃ T' a c, ell.collapse true 12 = .ok (T', a, c) ∧ T'.edges.length = 6) := by
  have h : Closed true flatEll := ⟨ell_reachable true, flatEll_isFlat, by decide⟩
  have hc : Collapsible ell 12 := flat_collapsible h (by decide) (by decide)
  obtain ⟨T', ψ, h1, -, -, -, -, -, h2⟩ := collapse_correct (ell_reachable true) hc
  have h3 : ell.edges.length = 9 := by decide
  exact ⟨h, hc, T', _, _, h1, by omega⟩

end Verif.C12

namespace Verif.C97

open Verif Spec Tri Examples

/-- The sphere glued from two triangles. -/
def sphere : Tri := tri [[0, 5], [1, 2], [4, 3]] []

theorem sphere_make (dbg : Bool) : make dbg (perm [[0, 5], [1, 2], [4, 3]]) [] = .ok sphere := by cases dbg <;> rfl

theorem sphere_reachable (dbg : Bool) : sphere.Reachable dbg := .make (.ofCycles (cs := [[0, 5], [1, 2], [4, 3]]) rfl) (sphere_make dbg)

/-- There is a face with two sides. -/
def Bigon : Except Err (Tri × HE × HE) → Bool
  | .ok (T, _, _) => decide (0 < T.size ∧ T.faces.fwd 0 ≠ 0 ∧ T.faces.fwd (T.faces.fwd (T.faces.fwd 0)) ≠ 0)
  | .error _ => false

theorem broken_of_bigon {r : Except Err (Tri × HE × HE)} (h : Bigon r = true) : ∃ T' a c, r = .ok (T', a, c) ∧ ¬ IsTriangulation T' := by
  match r, h with
  | .ok (T', a, c), h =>
    simp only [Bigon, decide_eq_true_eq] at h
    exact ⟨T', a, c, rfl, fun k => h.2.2 (k.triangle 0 (mem_halfEdges.2 h.1) (boundary_false.2 h.2.1)).1⟩
  | .error _, h => cases h

/-- Collapsing an edge of a torus built from two triangles gives a surface with a face with two sides. -/
theorem torus_broken (dbg : Bool) : Closed dbg flatTorus ∧ ∃ T' a c, flatTorus.tri.collapse dbg 0 = .ok (T', a, c) ∧ ¬ IsTriangulation T' :=
  ⟨⟨torus_reachable dbg, flatTorus_isFlat, by decide⟩, broken_of_bigon (by cases dbg <;> decide +kernel)⟩

/-- When there are only two half edges at an end of the edge, the result is not a triangulation either. -/
theorem sphere_broken (dbg : Bool) : sphere.Reachable dbg ∧ ∃ T' a c, sphere.collapse dbg 0 = .ok (T', a, c) ∧ ¬ IsTriangulation T' :=
  ⟨sphere_reachable dbg, broken_of_bigon (by cases dbg <;> decide +kernel)⟩

/-- What is true: on a closed flat surface, the collapsed surface is a triangulation unless the faces next to the edge form a torus. -/
theorem collapse_partial {T : Type} [CommRing T] [LinearOrder T] [IsStrictOrderedRing T] {dbg : Bool} {S : FlatTri T} (h : Closed dbg S)
    {e : HE} (he : e ∈ S.tri.halfEdges)
    (ht : ¬ (S.tri.nextInFace (neg e) = neg (S.tri.nextInFace e) ∧ S.tri.previousInFace (neg e) = neg (S.tri.previousInFace e))) :
    ∃ T' a c, S.tri.collapse dbg e = .ok (T', a, c) ∧ T'.Reachable dbg ∧ IsTriangulation T' ∧ VerticesCorrect T' := by
  obtain ⟨T', ψ, h1, -, h2, h3, h4, -⟩ := C12.collapse_correct h.reachable (C12.flat_collapsible h he ht)
  exact ⟨T', _, _, h1, h2, h3, h4⟩

example : Closed true flatEll ∧ (12 : HE) ∈ flatEll.tri.halfEdges ∧ ¬ (flatEll.tri.nextInFace (neg 12) = neg (flatEll.tri.nextInFace 12) ∧
    flatEll.tri.previousInFace (neg 12) = neg (flatEll.tri.previousInFace 12)) :=
  ⟨⟨ell_reachable true, flatEll_isFlat, by decide⟩, by decide, by decide⟩

end Verif.C97
