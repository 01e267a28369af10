import Verif.Lemmas.Examples

/-!
# C08: Vertices are tracked correctly through flips
-/

namespace Verif.C08

open Verif Spec Tri Examples

/-- After any sequence of operations the reported vertices are the orbits of `nextAtVertex`. -/
theorem vertices_correct {dbg : Bool} {T : Tri} (h : T.Reachable dbg) : VerticesCorrect T :=
  h.inv.2.verticesCorrect h.inv.1

/-- In particular after any sequence of flips. -/
theorem flips_vertices_correct {dbg : Bool} {T T' : Tri} (h : T.Reachable dbg) {es : List HE}
    (hf : T.flips dbg es = some T') : VerticesCorrect T' := by
  apply vertices_correct (dbg := dbg)
  induction es generalizing T with
  | nil => cases hf; exact h
  | cons e es ih =>
    unfold flips at hf
    rcases he : T.flip dbg e with ⟨T1, (err | u)⟩
    · rw [he] at hf; cases hf
    · rw [he] at hf
      exact ih (.flip h he) hf

/-- `Vertex::source(e)` is the vertex whose outgoing half edges are met when turning around the source of `e`. -/
theorem source_correct {dbg : Bool} {T : Tri} (h : T.Reachable dbg) {e : HE} (he : e ∈ T.halfEdges) :
    ∃ S, T.source e = some S ∧ S ∈ T.vertexes ∧ IsOrbit T e S := by
  obtain ⟨hc, hV⟩ := h.inv
  obtain ⟨S0, hS0, heS0⟩ := hV.cover e (mem_halfEdges.1 he)
  cases hs : T.source e with
  | none =>
    unfold source at hs
    rw [List.find?_eq_none] at hs
    exact absurd heS0 (by simpa using hs S0 hS0)
  | some S =>
    unfold source at hs
    have h1 := List.mem_of_find?_eq_some hs
    have h2 : e ∈ S := by simpa using List.find?_some hs
    refine ⟨S, rfl, h1, fun y => ?_⟩
    obtain ⟨x, hx, hxS⟩ := hV.orbit S h1
    rw [hxS]
    have h3 := (hxS e).1 h2
    exact ⟨fun h4 => (h3.symm hc.hv).trans h4, fun h4 => h3.trans h4⟩

/-- Two half edges have the same source vertex exactly when one is met when turning around the source of the other. -/
theorem source_eq_iff {dbg : Bool} {T : Tri} (h : T.Reachable dbg) {e e' : HE} (he : e ∈ T.halfEdges)
    (he' : e' ∈ T.halfEdges) : T.source e = T.source e' ↔ ∃ k, T.nextAtVertex^[k] e = e' := by
  obtain ⟨S, h1, h2, h3⟩ := source_correct h he
  obtain ⟨S', h1', h2', h3'⟩ := source_correct h he'
  rw [h1, h1', Option.some_inj]
  constructor
  · rintro rfl
    exact (h3 e').1 ((h3' e').2 ⟨0, rfl⟩)
  · intro hk
    exact VertexesOk.eq_of_mem h.inv.1.hv (h.inv.2.orbit S h2) (h.inv.2.orbit S' h2') ((h3 e').2 hk)
      ((h3' e').2 ⟨0, rfl⟩)

example : ∃ T', torus.Reachable true ∧ torus.flips true [0, 2, 0] = some T' :=
  ⟨_, torus_reachable _, rfl⟩

/-- Flipping the diagonal of a square moves it to the other two vertices. -/
example : ∃ T', square.Reachable true ∧ square.flips true [0] = some T' ∧ T'.source 0 ≠ square.source 0 ∧
    T'.source 0 = T'.source 8 ∧ 0 ∈ square.halfEdges :=
  ⟨_, square_reachable _, rfl, by decide, by decide, by decide⟩

end Verif.C08
