import Verif.Props.C19

/-!
# C70: delaunay() on surfaces with boundary

The property claims that `delaunay()` never throws on a flat triangulation and that no edge between two faces is
NON_DELAUNAY when it returns. This is false for surfaces with boundary: `delaunay(Edge)` does not check that there are
faces on both sides of the edge, so it may call an edge on the boundary NON_DELAUNAY, and `delaunay()` then tries to flip
that edge.
-/

namespace Verif.C70

open Verif Spec Tri FlatTri Examples

/-- The claim for all flat triangulations. -/
def Claim : Prop :=
  ∀ (dbg : Bool) (S : FlatTri ℤ), S.tri.Reachable dbg → IsFlat S → ∀ (fuel : ℕ) (r : Except Err (FlatTri ℤ)),
    S.delaunay (none : Option (Approx ℤ ℚ)) dbg fuel = some r →
      ∃ S', r = .ok S' ∧ ∀ e ∈ S'.tri.halfEdges, S'.tri.boundary e = false → S'.tri.boundary (neg e) = false →
        S'.delaunayAt e ≠ .nonDelaunay

/-- The claim holds for surfaces without boundary. -/
theorem delaunay_partial {dbg : Bool} {S : FlatTri ℤ} (h : S.tri.Reachable dbg) (hS : IsFlat S)
    (hb : S.tri.hasBoundary = false) {fuel : ℕ} {r : Except Err (FlatTri ℤ)}
    (hr : S.delaunay (none : Option (Approx ℤ ℚ)) dbg fuel = some r) :
    ∃ S', r = .ok S' ∧ ∀ e ∈ S'.tri.halfEdges, S'.tri.boundary e = false → S'.tri.boundary (neg e) = false →
      S'.delaunayAt e ≠ .nonDelaunay := by
  obtain ⟨S', h1, -, -, -, h2⟩ := C19.delaunay_correct _ ⟨h, hS, hb⟩ hr
  exact ⟨S', h1, fun e he _ _ => h2 e he⟩

example : C19.thin.tri.Reachable true ∧ IsFlat C19.thin ∧ C19.thin.tri.hasBoundary = false :=
  ⟨torus_reachable true, C19.thin_isFlat, by decide⟩

/-- A quadrilateral, made of the triangles `(6 8 3)` and `(2 4 1)`. -/
def kite : Tri := tri [[6, 2, 0], [4, 3, 9], [1, 5], [8, 7]] [0, 5, 7, 9]

theorem kite_make (dbg : Bool) : make dbg (perm [[6, 2, 0], [4, 3, 9], [1, 5], [8, 7]]) [0, 5, 7, 9] = .ok kite := by
  cases dbg <;> rfl

theorem kite_reachable (dbg : Bool) : kite.Reachable dbg :=
  .make (.ofCycles (cs := [[6, 2, 0], [4, 3, 9], [1, 5], [8, 7]]) rfl) (kite_make dbg)

/-- The vertices of the quadrilateral are (0, 0), (1, 0), (2, 2), and (0, 1). -/
def flatKite : FlatTri ℤ := ⟨kite, listed [⟨0, 1⟩, ⟨2, 2⟩, ⟨-2, -1⟩, ⟨1, 0⟩, ⟨1, 2⟩]⟩

theorem flatKite_isFlat : IsFlat flatKite :=
  (isFlat_of_check (none : Option (Approx ℤ ℚ)) (kite_reachable true) fun e _ => listed_neg _ e).1 (by decide +kernel)

/-- An edge on the boundary is reported to be NON_DELAUNAY. -/
theorem boundary_edge : flatKite.tri.boundary 0 = true ∧ flatKite.delaunayAt 0 = .nonDelaunay := by
  constructor <;> decide

/-- `delaunay()` throws for this surface. -/
theorem flatKite_throws (fuel : ℕ) :
    flatKite.delaunay (none : Option (Approx ℤ ℚ)) true (fuel + 1) = some (.error .invalidArgument) := rfl

theorem delaunay_fails : ¬ Claim := by
  intro h
  obtain ⟨S', h1, -⟩ := h true flatKite (kite_reachable true) flatKite_isFlat 1 _ (flatKite_throws 0)
  cases h1

end Verif.C70
