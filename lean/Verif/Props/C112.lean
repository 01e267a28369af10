import Verif.Lemmas.CollapsedMake
import Verif.Lemmas.CollapsedExamples

/-!
# C112: collapsed surfaces have no vertical half edges
-/

namespace Verif.C112

open Verif Spec Examples

variable {T : Type} [CommRing T] [LinearOrder T] [IsStrictOrderedRing T]
variable {K : Type*} [Field K] [LinearOrder K] [IsStrictOrderedRing K]
variable {A : Option (Approx T K)} {dbg : Bool} {S : FlatTri T} {v : Vec T} {C : Collapsed T}

/-- Every closed surface can be collapsed in every direction; the constructor does not throw and terminates. -/
theorem constructs (A : Option (Approx T K)) (hS : Closed dbg S) (hv : v ≠ 0) :
    ∃ C, ∀ fuel > S.tri.size, Collapsed.make A dbg fuel S v = some (.ok C) := by
  obtain ⟨C, h, -⟩ := Collapsed.make_spec hS.shut hv A dbg
  exact ⟨C, h⟩

example : ∃ C, ∀ fuel > 18, Collapsed.make (none : Option (Approx ℤ ℚ)) true fuel flatEll steep = some (.ok C) :=
  constructs none flatEll_closed (by decide)

/-- There is no vertical half edge, no matter what has been flipped. -/
theorem no_vertical (hS : Closed dbg S) (hv : v ≠ 0) (h : BuiltCollapsed A dbg S v C) {e : HE} (he : e ∈ C.tri.halfEdges) :
    Vec.ccw A v (C.fromHalfEdge e) ≠ .collinear := by
  have hs := h.sane hS.shut hv
  rw [Ne, Vertical.collinear_iff, ← hs.vertical]
  exact hs.upright e (by simpa [Tri.halfEdges] using he)

/-- The original surface and the direction do not change. -/
theorem unchanged (hS : Closed dbg S) (hv : v ≠ 0) (h : BuiltCollapsed A dbg S v C) : C.original = S ∧ C.vertical = v :=
  ⟨(h.sane hS.shut hv).original, (h.sane hS.shut hv).vertical⟩

example (e : HE) (he : e ∈ ellAfter.tri.halfEdges) : Vec.ccw (none : Option (Approx ℤ ℚ)) steep (ellAfter.fromHalfEdge e) ≠ .collinear :=
  no_vertical flatEll_closed (by decide) ellAfter_built he

/-- A vertical half edge did show up in the history of this surface. -/
example : ellBefore.tri.halfEdges.length = 18 ∧ ellAfter.tri.halfEdges.length = 12 := by decide +kernel

/-- The zero vector is rejected, unless there are no half edges. -/
theorem rejects_zero (A : Option (Approx T K)) (hS : Closed dbg S) (h0 : S.tri.size ≠ 0) (fuel : ℕ) :
    Collapsed.make A dbg fuel S 0 = some (.error .invalidArgument) := by
  obtain ⟨tri, t1, t2, t3⟩ := hS.shut.flat.coh.clone dbg
  unfold Collapsed.make Collapsed.init
  simp only [bind, Except.bind, t1, pure, Except.pure]
  rw [if_neg (by unfold Tri.size at h0 ⊢; rw [t2]; exact h0)]
  have : Vertical.make (0 : Vec T) = .error .invalidArgument := by
    unfold Vertical.make
    rw [if_pos (by
      have := (Vec.nonzero_iff (v := (0 : Vec T))).not.2 (by simp)
      simpa using this)]
  rw [this]

example (fuel : ℕ) : Collapsed.make (none : Option (Approx ℤ ℚ)) true fuel flatEll 0 = some (.error .invalidArgument) :=
  rejects_zero none flatEll_closed (by decide) fuel

end Verif.C112
