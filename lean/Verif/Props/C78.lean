import Verif.Props.C49

/-!
# C78: surfaces with boundary can be serialized

This does not hold. When saving, `nextAtVertex` is called for all half edges, also on the boundary, which is an error in
debug builds. The boundary is not written, so in release builds loading glues in additional triangles or fails.
-/

namespace Verif.C78

open Verif Spec Tri Examples Cereal

/-- Loading what was saved gives the same surface. -/
def RoundTrips (dbg : Bool) : Prop :=
  ∀ T : Tri, T.Reachable dbg → T.size ≤ 2 ^ 31 →
    ∃ a T', saveTri dbg T = .ok a ∧ loadTri dbg a = .ok T' ∧ Same T T'

/-- This is so for surfaces without boundary. -/
theorem roundTrips_partial {dbg : Bool} {T : Tri} (h : T.Reachable dbg) (hb : T.hasBoundary = false) (hs : T.size ≤ 2 ^ 31) :
    ∃ a T', saveTri dbg T = .ok a ∧ loadTri dbg a = .ok T' ∧ Same T T' := C49.tri_correct h hb hs

example (dbg : Bool) : torus.Reachable dbg ∧ torus.hasBoundary = false ∧ torus.size = 6 :=
  ⟨torus_reachable dbg, by decide +kernel, rfl⟩

/-- In debug builds, no surface with boundary can be saved. -/
theorem save_throws {T : Tri} (hb : T.hasBoundary = true) : ∀ a, saveTri true T ≠ .ok a := by
  intro a h
  unfold saveTri at h
  rw [if_pos ⟨rfl, by simpa [Tri.hasBoundary] using hb⟩] at h
  cases h

example : triangle.Reachable true ∧ triangle.hasBoundary = true := ⟨triangle_reachable true, by decide +kernel⟩

/-- In release builds, the triangle is loaded as a sphere made of two triangles. -/
theorem load_triangle : ∃ a T', saveTri false triangle = .ok a ∧ loadTri false a = .ok T' ∧ T'.hasBoundary = false ∧
    T'.halfEdges = triangle.halfEdges := by
  have h : (do
    let a ← saveTri false triangle
    let T' ← loadTri false a
    pure (T'.hasBoundary, T'.halfEdges) : Except Err (Bool × List HE)) = .ok (false, triangle.halfEdges) := by decide +kernel
  cases h1 : saveTri false triangle with
  | error e => rw [h1] at h; cases h
  | ok a =>
    rw [h1] at h
    cases h2 : loadTri false a with
    | error e => simp [h2, bind, Except.bind] at h
    | ok T' =>
      simp only [h2, bind, Except.bind, pure, Except.pure, Except.ok.injEq, Prod.mk.injEq] at h
      exact ⟨a, T', rfl, h2, h.1, h.2⟩

/-- In release builds, what was saved for a square cannot be loaded. -/
theorem load_square : ∃ a, saveTri false square = .ok a ∧ loadTri false a = .error .invalidArgument := by
  have h : (do
    let a ← saveTri false square
    return (match loadTri false a with | .ok _ => none | .error e => some e) : Except Err (Option Err)) =
      .ok (some .invalidArgument) := by decide +kernel
  cases h1 : saveTri false square with
  | error e => rw [h1] at h; cases h
  | ok a =>
    rw [h1] at h
    refine ⟨a, rfl, ?_⟩
    cases h2 : loadTri false a with
    | error e =>
      simp [h2, bind, Except.bind, pure, Except.pure] at h
      rw [h]
    | ok T' => simp [h2, bind, Except.bind, pure, Except.pure] at h

/-- Serialization does not round-trip, neither in debug nor in release builds. -/
theorem not_roundTrips (dbg : Bool) : ¬ RoundTrips dbg := by
  intro h
  cases dbg with
  | true =>
    obtain ⟨a, -, h1, -⟩ := h triangle (triangle_reachable true) (by decide)
    exact save_throws (by decide +kernel) a h1
  | false =>
    obtain ⟨a, T', h1, h2, -⟩ := h square (square_reachable false) (by decide)
    obtain ⟨b, g1, g2⟩ := load_square
    rw [g1] at h1
    cases h1
    rw [g2] at h2
    cases h2

end Verif.C78
