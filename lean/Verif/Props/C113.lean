import Verif.Lemmas.CollapsedMake
import Verif.Lemmas.CollapsedExamples

/-!
# C113: faces of collapsed surfaces
-/

namespace Verif.C113

open Verif Spec Examples

variable {T : Type} [CommRing T] [LinearOrder T] [IsStrictOrderedRing T]
variable {K : Type*} [Field K] [LinearOrder K] [IsStrictOrderedRing K]
variable {A : Option (Approx T K)} {dbg : Bool} {S : FlatTri T} {v : Vec T} {C : Collapsed T}

/-- Every face is a triangle which is oriented counterclockwise or it has been collapsed to two half edges. -/
theorem faces (hS : Closed dbg S) (hv : v ≠ 0) (h : BuiltCollapsed A dbg S v C) {e : HE} (he : e ∈ C.tri.halfEdges) :
    TriangleAt C e ∨ CollapsedAt C e := by
  have hs := h.sane hS.shut hv
  have he' : e < C.tri.size := by simpa [Tri.halfEdges] using he
  rcases hs.good.inv.face e (Collapsed.mem_net.2 he') with k | k
  · refine .inl ⟨k.1, ⟨fun j => k.ne.1 j.symm, fun j => ?_⟩, k.2.1, k.2.2⟩
    have j2 : C.tri.faces.fwd e = e := hs.good.linked.hf.inj j.symm
    exact k.ne.1 j2
  · exact .inr ⟨⟨k.1, k.2.1⟩, k.2.2.2.1⟩

/-- Faces are permuted: `previousInFace` goes back. -/
theorem permuted (hS : Closed dbg S) (hv : v ≠ 0) (h : BuiltCollapsed A dbg S v C) {e : HE} (he : e ∈ C.tri.halfEdges) :
    C.tri.nextInFace e ∈ C.tri.halfEdges ∧ C.tri.previousInFace (C.tri.nextInFace e) = e ∧
    C.tri.nextInFace (C.tri.previousInFace e) = e := by
  have hs := h.sane hS.shut hv
  have he' : e < C.tri.size := by simpa [Tri.halfEdges] using he
  exact ⟨by simpa [Tri.halfEdges] using hs.good.next_lt he', hs.good.linked.hf.left e, hs.good.linked.hf.right e⟩

/-- Both kinds of faces exist. -/
example : (∀ e ∈ ellAfter.tri.halfEdges, TriangleAt ellAfter e ∨ CollapsedAt ellAfter e) :=
  fun _ he => faces flatEll_closed (by decide) ellAfter_built he

end Verif.C113
