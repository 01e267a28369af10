import Verif.Lemmas.CollapsedMake
import Verif.Lemmas.CollapsedExamples

/-!
# C116: connections that have been collapsed
-/

namespace Verif.C116

open Verif Spec Examples

variable {T : Type} [CommRing T] [LinearOrder T] [IsStrictOrderedRing T]
variable {K : Type*} [Field K] [LinearOrder K] [IsStrictOrderedRing K]
variable {A : Option (Approx T K)} {dbg : Bool} {S : FlatTri T} {v : Vec T} {C : Collapsed T}

/-- After the construction, the collapsed connections are exactly the vertical half edges of the surface. -/
theorem constructor {fuel : ℕ} (hS : Closed dbg S) (hv : v ≠ 0) (h : Collapsed.make A dbg fuel S v = some (.ok C)) :
    collapsedConnections C = verticalHalfEdges S v := by
  obtain ⟨C', h1, -, h2⟩ := Collapsed.make_unique hS.shut hv h
  cases h1
  exact h2

/-- Connections never get lost: flips only add connections. -/
theorem grows (hS : Closed dbg S) (hv : v ≠ 0) (h : BuiltCollapsed A dbg S v C) {e : HE} (he : e ∈ C.tri.halfEdges) :
    collapsedConnections C ≤ collapsedConnections (C.flip A dbg e).1 := by
  have hs := h.sane hS.shut hv
  have he' : e < C.tri.size := by simpa [Tri.halfEdges] using he
  by_cases k : C.Between e ∧ IsLarge C.seen C.vertical e
  · obtain ⟨C', c1, c2⟩ := (Collapsed.flip_spec A dbg hs.good hs.upright he').1 k
    rw [c1, ← Collapsed.all_eq, ← Collapsed.all_eq]
    rcases c2.all with j | ⟨w, j⟩ <;> rw [j]
    exact (Multiset.le_cons_self _ _).trans (Multiset.le_cons_self _ _)
  · rw [(Collapsed.flip_spec A dbg hs.good hs.upright he').2 k]

/-- In particular, all vertical half edges of the surface are always collapsed. -/
theorem contains (hS : Closed dbg S) (hv : v ≠ 0) (h : BuiltCollapsed A dbg S v C) : verticalHalfEdges S v ≤ collapsedConnections C :=
  (h.sane hS.shut hv).all

/-- The connections are there with both orientations. -/
theorem symmetric (hS : Closed dbg S) (hv : v ≠ 0) (h : BuiltCollapsed A dbg S v C) :
    (collapsedConnections C).map (- ·) = collapsedConnections C := (h.sane hS.shut hv).sym

/-- In this direction there are vertical half edges. -/
example : ∃ C, Collapsed.make (none : Option (Approx ℤ ℚ)) true 19 flatEll ⟨0, 1⟩ = some (.ok C) ∧
    collapsedConnections C = verticalHalfEdges flatEll ⟨0, 1⟩ ∧ (verticalHalfEdges flatEll ⟨0, 1⟩).card = 6 := by
  obtain ⟨C, h, -⟩ := Collapsed.make_spec flatEll_closed.shut (v := ⟨0, 1⟩) (by decide) (none : Option (Approx ℤ ℚ)) true
  have := h 19 (by decide)
  exact ⟨C, this, constructor flatEll_closed (by decide) this, by decide +kernel⟩

/-- Here a connection is added by a flip. -/
example : collapsedConnections ellBefore = 0 ∧ collapsedConnections ellAfter = {⟨1, 2⟩, ⟨-1, -2⟩} := by decide +kernel

end Verif.C116
