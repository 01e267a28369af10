import Verif.Lemmas.FlowEmbedding
import Verif.Lemmas.FlowDecompositionExamples

/-!
# C48: the triangulations of components fit together
-/

namespace Verif.C48

open Verif Vec Spec FlowTriangulation Examples

variable {T : Type} [CommRing T] [LinearOrder T] [IsStrictOrderedRing T]
variable {K : Type*} [Field K] [LinearOrder K] [IsStrictOrderedRing K]

/-- The perimeters of all components. -/
abbrev perimeters (components : List (List Connection × List Connection)) : List (List Connection) :=
  components.map fun x => x.1 ++ x.2

/-- `R` is the triangulation of the component with index `i`. -/
structure Component (A : Option (Approx T K)) (dbg : Bool) (vec : HE → Vec T) (v : Vec T)
    (components : List (List Connection × List Connection)) (i : ℕ) (C : List Connection × List Connection) (R : Result T) : Prop where
  get : components[i]? = some C
  make : make A dbg vec v (C.1 ++ C.2) = .ok R

/-- `e` is a half edge in a face of the triangulation `R`. -/
structure IsInner (R : Result T) (e : HE) : Prop where
  mem : e ∈ R.triangulation.tri.halfEdges
  inner : R.triangulation.tri.boundary e = false

variable {vec : HE → Vec T} {v : Vec T} {components : List (List Connection × List Connection)}

/-- There is a triangulation for each component. -/
theorem exists_triangulation (A : Option (Approx T K)) (dbg : Bool) (h : Decomposition vec v components) {i : ℕ}
    {C : List Connection × List Connection} (hC : components[i]? = some C) : ∃ R, Component A dbg vec v components i C R := by
  obtain ⟨R, N, h1, -⟩ := piece_of_perimeter A dbg (h.perimeter C (List.mem_of_getElem? hC)) (h.four C (List.mem_of_getElem? hC))
  exact ⟨R, hC, h1⟩

/-- The embedding of the half edges in the faces of all components is a bijection to the half edges of the triangulation of the
decomposition. -/
theorem embedding_bijective (A : Option (Approx T K)) (dbg : Bool) (h : Decomposition vec v components) :
    (∀ i C R e, Component A dbg vec v components i C R → IsInner R e →
      ∃ x < halfEdgeCount components, embedding dbg (perimeters components) i R e = .ok x) ∧
    (∀ i j C D R Q e f, Component A dbg vec v components i C R → Component A dbg vec v components j D Q → IsInner R e → IsInner Q f →
      embedding dbg (perimeters components) i R e = embedding dbg (perimeters components) j Q f → i = j ∧ e = f) ∧
    ∀ x < halfEdgeCount components, ∃ i C R e, Component A dbg vec v components i C R ∧ IsInner R e ∧
      embedding dbg (perimeters components) i R e = .ok x := by
  refine ⟨?_, ?_, ?_⟩
  · intro i C R e hR he
    obtain ⟨E, -⟩ := embedded A dbg h hR.get hR.make
    exact E.lt h he.mem he.inner
  · intro i j C D R Q e f hR hQ he hf hef
    obtain ⟨E, -⟩ := embedded A dbg h hR.get hR.make
    obtain ⟨F, -⟩ := embedded A dbg h hQ.get hQ.make
    refine E.inj h F he.mem he.inner hf.mem hf.inner (fun hij => ?_) hef
    subst hij
    have hC : C = D := Option.some.inj (hR.get.symm.trans hQ.get)
    subst hC
    exact Except.ok.inj (hR.make.symm.trans hQ.make)
  · intro x hx
    obtain ⟨i, C, R, e, h1, h2, h3, h4, h5⟩ := embedding_surj A dbg h hx
    exact ⟨i, C, R, e, ⟨h1, h2⟩, ⟨h3, h4⟩, h5⟩

/-- Connections are glued to their negatives. -/
theorem embedding_glued (A : Option (Approx T K)) (dbg : Bool) (h : Decomposition vec v components) {i j : ℕ}
    {C D : List Connection × List Connection} {R Q : Result T} (hR : Component A dbg vec v components i C R)
    (hQ : Component A dbg vec v components j D Q) {c : HE} (hc : c ∈ (C.1 ++ C.2).map Connection.key)
    (hn : neg c ∈ (D.1 ++ D.2).map Connection.key) :
    ∃ e f x, IsInner R e ∧ R.toHalfEdge c = some e ∧ IsInner Q f ∧ Q.toHalfEdge (neg c) = some f ∧
      embedding dbg (perimeters components) i R e = .ok x ∧ embedding dbg (perimeters components) j Q f = .ok (neg x) := by
  obtain ⟨E, rfl⟩ := embedded A dbg h hR.get hR.make
  obtain ⟨F, rfl⟩ := embedded A dbg h hQ.get hQ.make
  obtain ⟨e, e1, e2, e3, -⟩ := E.piece.triangulates.side c hc
  obtain ⟨f, f1, f2, f3, -⟩ := F.piece.triangulates.side (neg c) hn
  refine ⟨e, f, _, ⟨e1, e3⟩, e2, ⟨f1, f3⟩, f2, E.eq h e3, ?_⟩
  rw [F.eq h f3, E.piece.place_connection _ _ (by rw [← E.piece.layout.toHalfEdge]; exact e2),
    F.piece.place_connection _ _ (by rw [← F.piece.layout.toHalfEdge]; exact f2), globalHE_neg (E.sub hc)]

/-- Half edges that are glued in a component are also glued in the triangulation of the decomposition. -/
theorem embedding_neg (A : Option (Approx T K)) (dbg : Bool) (h : Decomposition vec v components) {i : ℕ}
    {C : List Connection × List Connection} {R : Result T} (hR : Component A dbg vec v components i C R) {e : HE}
    (he : IsInner R e) (hn : IsInner R (neg e)) :
    ∃ x, embedding dbg (perimeters components) i R e = .ok x ∧ embedding dbg (perimeters components) i R (neg e) = .ok (neg x) := by
  obtain ⟨E, rfl⟩ := embedded A dbg h hR.get hR.make
  have heven := E.piece.numbered.ok.even
  rcases E.cases h he.mem he.inner with ⟨c, hc, h0, h1⟩ | ⟨k, hk, h0, h1⟩
  · refine ⟨_, h1, ?_⟩
    have hnc : neg c ∈ (E.C.1 ++ E.C.2).map Connection.key := by
      by_contra hnc
      have := (E.piece.triangulates.boundary (neg e) hn.mem).2 ⟨c, hc, hnc, by rw [neg_neg']; exact h0⟩
      rw [hn.inner] at this
      cases this
    have h2 := E.piece.triangulates.glued c hc hnc e h0
    rw [E.eq h hn.inner, E.piece.place_connection _ _ (by rw [← E.piece.layout.toHalfEdge]; exact h2), globalHE_neg (E.sub hc)]
  · refine ⟨_, h1, ?_⟩
    have hle : E.N.vectors.size ≤ neg e := by
      rw [neg_def]; split <;> omega
    have hB : E.base % 2 = 0 := by
      unfold Embedded.base
      have := (globalHE_perm h.nodup h.closed).2
      have := sum_even ((components.map fun x => x.1 ++ x.2).take i) fun C => C.length - 3
      omega
    rw [E.eq h hn.inner, E.piece.place_inner _ _ hle]
    congr 1
    rw [neg_def, neg_def]
    split <;> split <;> omega

/-- The half edges at the boundary of a component, i.e., half edges that are not in any face, are all mapped to the same half edge. -/
theorem embedding_boundary (A : Option (Approx T K)) (dbg : Bool) (h : Decomposition vec v components) {i : ℕ}
    {C : List Connection × List Connection} {R : Result T} (hR : Component A dbg vec v components i C R) {e : HE}
    (hb : R.triangulation.tri.boundary e = true) : embedding dbg (perimeters components) i R e = .ok 806 := by
  obtain ⟨E, -⟩ := embedded A dbg h hR.get hR.make
  exact E.eq_sentinel h hb

/-- The hypotheses hold for a surface with two cylinders. -/
example : Decomposition cylindersVec ⟨0, 1⟩ twoCylinders ∧ twoCylinders[0]? = some (cylinderBottom, cylinderTop) ∧
    halfEdgeCount twoCylinders = 12 := ⟨twoCylinders_decomposition, rfl, rfl⟩

end Verif.C48
