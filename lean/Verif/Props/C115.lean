import Verif.Lemmas.CollapsedMake
import Verif.Lemmas.CollapsedExamples

/-!
# C115: crossing half edges of collapsed surfaces
-/

namespace Verif.C115

open Verif Spec Examples

variable {T : Type} [CommRing T] [LinearOrder T] [IsStrictOrderedRing T]
variable {K : Type*} [Field K] [LinearOrder K] [IsStrictOrderedRing K]
variable {A : Option (Approx T K)} {dbg : Bool} {S : FlatTri T} {v : Vec T} {C : Collapsed T}

/-- A half edge is the negative of its negative up to the connections that have been collapsed in between. -/
theorem opposite (hS : Closed dbg S) (hv : v ≠ 0) (h : BuiltCollapsed A dbg S v C) {e : HE} (he : e ∈ C.tri.halfEdges) :
    C.fromHalfEdge e + C.fromHalfEdge (neg e) = (C.cross e).sum + (C.cross (neg e)).sum := by
  have hs := h.sane hS.shut hv
  have he' : e < C.tri.size := by simpa [Tri.halfEdges] using he
  exact hs.good.inv.opp e (Collapsed.mem_net.2 he') (hs.good.closed e (Collapsed.mem_net.2 he'))

/-- The connections that have been collapsed are vertical. -/
theorem vertical (hS : Closed dbg S) (hv : v ≠ 0) (h : BuiltCollapsed A dbg S v C) {e : HE} (he : e ∈ C.tri.halfEdges) {k : Vec T}
    (hk : k ∈ C.cross e) : Vec.ccw A v k = .collinear := by
  have hs := h.sane hS.shut hv
  have he' : e < C.tri.size := by simpa [Tri.halfEdges] using he
  rw [Vertical.collinear_iff, ← hs.vertical]
  exact (hs.good.inv.vert e (Collapsed.mem_net.2 he') k hk).1

/-- They point down at half edges that go to the right and up at half edges that go to the left. -/
theorem direction (hS : Closed dbg S) (hv : v ≠ 0) (h : BuiltCollapsed A dbg S v C) {e : HE} (he : e ∈ C.tri.halfEdges) {k : Vec T}
    (hk : k ∈ C.cross e) :
    (0 < Vertical.projectPerpendicular v (C.fromHalfEdge e) ∧ Vec.orientation A v k = .opposite) ∨
    (Vertical.projectPerpendicular v (C.fromHalfEdge e) < 0 ∧ Vec.orientation A v k = .same) := by
  have hs := h.sane hS.shut hv
  have he' : e < C.tri.size := by simpa [Tri.halfEdges] using he
  have h1 := (hs.good.inv.vert e (Collapsed.mem_net.2 he') k hk).2
  rw [hs.vertical] at h1
  change Vec.dot k v * Vec.cross (C.fromHalfEdge e) v < 0 at h1
  rw [Vertical.projectPerpendicular_eq]
  have hd : Vec.dot k v = Vec.dot v k := by unfold Vec.dot; ring
  rw [hd] at h1
  rcases mul_neg_iff.1 h1 with ⟨h2, h3⟩ | ⟨h2, h3⟩
  · exact .inr ⟨h3, (Vec.orientation_same A).2 h2⟩
  · exact .inl ⟨h3, (Vec.orientation_eq A h2.ne).trans (Vec.orientationExact_opposite.2 h2)⟩

example : ellAfter.fromHalfEdge 0 + ellAfter.fromHalfEdge 1 = (ellAfter.cross 0).sum + (ellAfter.cross 1).sum :=
  opposite flatEll_closed (by decide) ellAfter_built (by decide +kernel)

/-- Indeed, something has been collapsed between these half edges. -/
example : ellAfter.fromHalfEdge 0 = ⟨0, -1⟩ ∧ ellAfter.fromHalfEdge 1 = ⟨-1, -1⟩ ∧ ellAfter.cross 0 = [⟨-1, -2⟩] ∧ 0 ∈ ellAfter.tri.halfEdges := by
  decide +kernel

end Verif.C115
