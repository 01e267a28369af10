import Verif.Lemmas.Examples

/-!
# C06: Flipping keeps a triangulation a triangulation (and C58: rejected flips)
-/

namespace Verif.C06

open Verif Spec Tri Examples

/-- Number of faces reported by `faces()`. -/
def faceCount (T : Tri) : ℕ := (T.facesList.getD []).length

theorem faceCount_spec {T : Tri} (h : T.Coherent) :
    3 * faceCount T = ((List.range T.size).filter fun x => !T.boundary x).length := by
  obtain ⟨l, h1, -, h2⟩ := facesList_spec h
  unfold faceCount
  rw [h1, ← h2.length_eq, List.length_flatMap]
  simp [Nat.mul_comm]

/-- A triangulation built by any sequence of operations is a triangulation. -/
theorem reachable_isTriangulation {dbg : Bool} {T : Tri} (h : T.Reachable dbg) : IsTriangulation T :=
  h.isTriangulation

/-- What a flip preserves: it is still a triangulation, with the same half edges, the same boundary, and as many
vertices and faces as before. -/
structure Preserved (T T' : Tri) : Prop where
  triangulation : IsTriangulation T'
  halfEdges : T'.halfEdges = T.halfEdges
  edges : T'.edges = T.edges
  boundary : ∀ e, T'.boundary e = T.boundary e
  vertexCount : T'.vertexes.length = T.vertexes.length
  faceCount : faceCount T' = faceCount T

theorem flip_preserves {dbg : Bool} {T T' : Tri} (h : T.Reachable dbg) {e : HE} (hf : T.flip dbg e = (T', .ok ())) :
    Preserved T T' := by
  have hq := h.inv.1.quad (flippable_of_ok h.inv.1 hf)
  obtain ⟨T'', h1, h2⟩ := flip_flipped h.inv.1 hq dbg
  rw [hf] at h1
  cases h1
  have hb : ∀ e, T'.boundary e = T.boundary e := by
    intro x
    rw [Bool.eq_iff_iff, boundary_true, boundary_true]
    exact h2.boundary_iff hq x
  have hs : T'.size = T.size := h2.vsize
  refine ⟨(Reachable.flip h hf).isTriangulation, ?_, ?_, hb, ?_, ?_⟩
  · unfold Tri.halfEdges; rw [hs]
  · unfold Tri.edges; rw [hs]
  · rw [h2.vertexes, List.length_map]
  · have h3 := faceCount_spec h.inv.1
    have h4 := faceCount_spec (h2.coherent h.inv.1 hq)
    rw [hs, show T'.boundary = T.boundary from funext hb] at h4
    omega

/-- The same for any sequence of flips. -/
theorem flips_preserve {dbg : Bool} {T T' : Tri} (h : T.Reachable dbg) {es : List HE} (hf : T.flips dbg es = some T') :
    T'.Reachable dbg ∧ Preserved T T' := by
  induction es generalizing T with
  | nil => cases hf; exact ⟨h, h.isTriangulation, rfl, rfl, fun _ => rfl, rfl, rfl⟩
  | cons e es ih =>
    unfold flips at hf
    rcases he : T.flip dbg e with ⟨T1, (err | u)⟩
    · rw [he] at hf; cases hf
    · rw [he] at hf
      have h1 := flip_preserves h he
      obtain ⟨h2, h3⟩ := ih (.flip h he) hf
      exact ⟨h2, h3.triangulation, h3.halfEdges.trans h1.halfEdges, h3.edges.trans h1.edges,
        fun x => (h3.boundary x).trans (h1.boundary x), h3.vertexCount.trans h1.vertexCount,
        h3.faceCount.trans h1.faceCount⟩

/-- The torus, flipped three times. -/
example : ∃ T', torus.Reachable true ∧ torus.flips true [0, 2, 0] = some T' ∧ T'.nextInFace 0 ≠ torus.nextInFace 0 :=
  ⟨_, torus_reachable _, rfl, by decide⟩

/-- A surface with boundary: the diagonal of a square can be flipped. -/
example : ∃ T', square.Reachable false ∧ square.flips false [0] = some T' ∧ T'.nextInFace 0 ≠ square.nextInFace 0 :=
  ⟨_, square_reachable _, rfl, by decide⟩

/-- A flip succeeds exactly when the two half edges are not on the boundary and in different faces. -/
theorem flip_succeeds_iff {dbg : Bool} {T : Tri} (h : T.Reachable dbg) (e : HE) :
    (∃ T', T.flip dbg e = (T', .ok ())) ↔
      e ∈ T.halfEdges ∧ T.boundary e = false ∧ T.boundary (neg e) = false ∧
        neg e ∉ [T.nextInFace e, T.nextInFace (T.nextInFace e)] := by
  constructor
  · rintro ⟨T', hf⟩
    have hF := flippable_of_ok h.inv.1 hf
    refine ⟨mem_halfEdges.2 (h.inv.1.quad hF).lt.1, boundary_false.2 hF.nb, boundary_false.2 hF.nb', ?_⟩
    simp only [List.mem_cons, List.not_mem_nil, or_false, not_or]
    exact ⟨hF.a.symm, hF.b.symm⟩
  · rintro ⟨-, h1, h2, h3⟩
    simp only [List.mem_cons, List.not_mem_nil, or_false, not_or] at h3
    obtain ⟨T', h4, -⟩ := flip_flipped h.inv.1
      (h.inv.1.quad ⟨boundary_false.1 h1, boundary_false.1 h2, Ne.symm h3.1, Ne.symm h3.2⟩) dbg
    exact ⟨T', h4⟩

/-! ### Rejected flips -/

/-- The full claim (C58): a flip which cannot be performed throws and leaves the surface unchanged. -/
def RejectionClaim (dbg : Bool) : Prop :=
  ∀ T : Tri, T.Reachable dbg → ∀ e ∈ T.halfEdges, (¬ ∃ T', T.flip dbg e = (T', .ok ())) →
    T.flip dbg e = (T, .error .invalidArgument)

theorem not_flippable {dbg : Bool} {T : Tri} (h : T.Reachable dbg) {e : HE}
    (hf : ¬ ∃ T', T.flip dbg e = (T', .ok ())) : ¬ T.Flippable e := by
  intro hF
  obtain ⟨T', h4, -⟩ := flip_flipped h.inv.1 (h.inv.1.quad hF) dbg
  exact hf ⟨T', h4⟩

/-- In debug builds it holds. -/
theorem rejected_unchanged_debug : RejectionClaim true := by
  intro T h e he hf
  exact flip_rejects h.inv.1 (mem_halfEdges.1 he) (not_flippable h hf) true (.inl rfl)

/-- In release builds it holds unless the face opposite to a proper face is missing. (Missing: that case, see below.) -/
theorem rejected_unchanged_partial {dbg : Bool} {T : Tri} (h : T.Reachable dbg) {e : HE} (he : e ∈ T.halfEdges)
    (hf : ¬ ∃ T', T.flip dbg e = (T', .ok ())) (hb : T.boundary (neg e) = false ∨ T.boundary e = true) :
    T.flip dbg e = (T, .error .invalidArgument) := by
  refine flip_rejects h.inv.1 (mem_halfEdges.1 he) (not_flippable h hf) dbg (.inr ?_)
  rcases hb with hb | hb
  · exact .inl (boundary_false.1 hb)
  · exact .inr (boundary_true.1 hb)

/-- In release builds flipping the edge of a single triangle throws but has modified the surface by then: the half edge
`e` is no longer followed by the same half edge at its vertex, and the result is not a triangulation. -/
theorem release_flip_corrupts :
    ∃ T T' : Tri, T.Reachable false ∧ T.flip false 0 = (T', .error .invalidArgument) ∧
      T'.nextAtVertex 2 ≠ T.nextAtVertex 2 ∧ ¬ IsTriangulation T' := by
  refine ⟨triangle, _, triangle_reachable _, rfl, by decide, ?_⟩
  intro h
  have := h.corner 2 (by decide) (by decide)
  revert this
  decide

theorem rejection_fails : ¬ RejectionClaim false := by
  intro hc
  obtain ⟨T, T', hT, hf, hne, -⟩ := release_flip_corrupts
  have h1 := hc T hT 0 ?_ ?_
  · rw [hf] at h1
    cases h1
    exact hne rfl
  · rw [mem_halfEdges]
    by_contra h0
    unfold Tri.flip at hf
    rw [if_pos (.inl (by omega))] at hf
    cases hf
  · rintro ⟨T'', h2⟩
    rw [hf] at h2
    cases h2

/-- The hypotheses of the partial theorem are met by flips of the boundary half edges of the single triangle. -/
example : triangle.flip false 1 = (triangle, .error .invalidArgument) := by
  refine rejected_unchanged_partial (triangle_reachable _) (by decide) ?_ (.inr (by decide))
  rw [flip_succeeds_iff (triangle_reachable _)]
  decide

end Verif.C06
