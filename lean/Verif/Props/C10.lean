import Verif.Lemmas.TriInsert
import Verif.Lemmas.Examples

/-!
# C10: Inserting a vertex in a face gives a triangulation with the expected faces
-/

namespace Verif.C10

open Verif Spec Tri Examples

/-- What is expected after inserting a vertex in the face `(e f g)` of `T`: there are three new edges `a`, `b`, `c`
around a new vertex and the face is replaced by the faces `(e -b a)`, `(f -c b)` and `(g -a c)`. -/
structure IsInsertion (T T' : Tri) (e f g a b c : HE) : Prop where
  /-- The new edges have the next three ids. -/
  newEdges : heId a = T.edges.length + 1 ∧ heId b = T.edges.length + 2 ∧ heId c = T.edges.length + 3
  /-- Nothing else is new. -/
  halfEdges : T'.halfEdges = T.halfEdges ++ [a, neg a, b, neg b, c, neg c]
  /-- The new faces. -/
  face1 : IsFace T' e (neg b) a
  face2 : IsFace T' f (neg c) b
  face3 : IsFace T' g (neg a) c
  /-- All other faces and the boundary are unchanged. -/
  others : ∀ x ∈ T.halfEdges, x ∉ [e, f, g] → T'.nextInFace x = T.nextInFace x ∧ T'.boundary x = T.boundary x
  /-- The new vertex. -/
  vertex : IsOrbit T' a {a, b, c} ∧ {a, b, c} ∈ T'.vertexes
  /-- The old vertices are still different vertices. -/
  sources : ∀ x ∈ T.halfEdges, ∀ y ∈ T.halfEdges,
    ((∃ k, T'.nextAtVertex^[k] x = y) ↔ ∃ k, T.nextAtVertex^[k] x = y)

/-- Inserting a vertex in a face of a triangulation succeeds, and does what is expected. -/
theorem insertAt_correct {dbg : Bool} {T : Tri} (h : T.Reachable dbg) {e f g : HE} (hf : IsFace T e f g) :
    ∃ T' a b c, T.insertAt dbg e = .ok T' ∧ T'.Reachable dbg ∧ IsTriangulation T' ∧ VerticesCorrect T' ∧
      IsInsertion T T' e f g a b c := by
  obtain ⟨he, hb, rfl, rfl, hg⟩ := hf
  rw [boundary_false] at hb
  have hc := h.inv.1
  have hev := hc.even
  obtain ⟨T', h1, h2, i⟩ := hc.insertAt hb dbg
  have hc' := h2.inv.1
  have hgf : T.faces.fwd (T.faces.fwd e) ≠ T.faces.fwd e := fun hx => hb (hc.fwd_fixed.1 hx)
  have hes := hc.lt_of_not_boundary hb
  have hfs := hc.lt_of_not_boundary hgf
  have hgs := hc.lt_of_not_boundary (fun hx => hgf (hc.fwd_fixed.1 hx))
  obtain ⟨n0, n1, n2, n3, n4, n5⟩ := neg_new hev
  have hlen : T.edges.length = T.size / 2 := by simp [edges]
  have hV := h2.inv.2.verticesCorrect hc'
  have horb : IsOrbit T' T.size {T.size, T.size + 2, T.size + 4} := by
    intro x
    simp only [Finset.mem_insert, Finset.mem_singleton]
    constructor
    · rintro (rfl | rfl | rfl)
      · exact ⟨0, rfl⟩
      · exact ⟨1, i.va⟩
      · exact ⟨2, by change T'.vertices.fwd (T'.vertices.fwd T.size) = _; rw [i.va, i.vb]⟩
    · rintro ⟨k, rfl⟩
      have key : ∀ k, T'.nextAtVertex^[k] T.size = T.size ∨ T'.nextAtVertex^[k] T.size = T.size + 2 ∨
          T'.nextAtVertex^[k] T.size = T.size + 4 := by
        intro k
        induction k with
        | zero => exact .inl rfl
        | succ k ih =>
          rw [Function.iterate_succ_apply']
          rcases ih with ih | ih | ih <;> rw [ih]
          · exact .inr (.inl i.va)
          · exact .inr (.inr i.vb)
          · exact .inl i.vc
      exact key k
  refine ⟨T', T.size, T.size + 2, T.size + 4, h1, h2, h2.isTriangulation, hV, ?_, ?_, ?_, ?_, ?_, ?_, ⟨horb, ?_⟩, ?_⟩
  · rw [hlen]
    unfold heId size
    refine ⟨?_, ?_, ?_⟩ <;> rw [if_neg (by omega)] <;> push_cast <;> omega
  · unfold Tri.halfEdges
    rw [i.vsize, n2, n4, show neg T.size = T.size + 1 from n0, List.range_add]
    rfl
  · refine ⟨mem_halfEdges.2 (by rw [i.vsize]; omega), ?_, ?_, ?_, i.fa⟩
    · rw [boundary_false, i.fe]; omega
    · rw [n2]; exact i.fe
    · rw [n2]; exact i.fb'
  · refine ⟨mem_halfEdges.2 (by rw [i.vsize]; unfold nextInFace; omega), ?_, ?_, ?_, i.fb⟩
    · rw [boundary_false]; unfold nextInFace; rw [i.ff]; omega
    · rw [n4]; exact i.ff
    · rw [n4]; exact i.fc'
  · refine ⟨mem_halfEdges.2 (by rw [i.vsize]; unfold nextInFace; omega), ?_, ?_, ?_, i.fc⟩
    · rw [boundary_false]; unfold nextInFace; rw [i.fg]; omega
    · rw [show neg T.size = T.size + 1 from n0]; exact i.fg
    · rw [show neg T.size = T.size + 1 from n0]; exact i.fa'
  · intro x hx hn
    simp only [List.mem_cons, List.not_mem_nil, or_false, not_or] at hn
    have := i.fx x (mem_halfEdges.1 hx) hn.1 hn.2.1 hn.2.2
    refine ⟨this, ?_⟩
    unfold boundary
    rw [this]
  · exact (hV.2 _).2 ⟨T.size, mem_halfEdges.2 (by rw [i.vsize]; omega), horb⟩
  · intro x hx y hy
    exact i.orb hc hes hfs hgs hc' (mem_halfEdges.1 hx) (mem_halfEdges.1 hy)

/-- Beyond the boundary nothing can be inserted. -/
theorem insertAt_boundary {dbg : Bool} {T : Tri} {e : HE} (he : e ∈ T.halfEdges) (hb : T.boundary e = true) :
    T.insertAt dbg e = .error .invalidArgument := by
  unfold insertAt
  rw [if_neg (by rw [mem_halfEdges] at he; omega), if_pos hb]
  rfl

example : IsFace torus 0 2 5 ∧ torus.Reachable true := ⟨by unfold IsFace; decide, torus_reachable _⟩

example : ∃ T', torus.insertAt true 0 = .ok T' ∧ T'.nextInFace 0 = 9 ∧ T'.vertexes.length = 2 :=
  ⟨_, rfl, by decide, by decide⟩

example : IsFace square 1 6 8 ∧ square.Reachable false ∧ square.boundary 3 = true ∧ 3 ∈ square.halfEdges :=
  ⟨by unfold IsFace; decide, square_reachable _, by decide, by decide⟩

end Verif.C10
