import Verif.Lemmas.CollapsedMake
import Verif.Lemmas.CollapsedExamples

/-!
# C117: flips of collapsed surfaces
-/

namespace Verif.C117

open Verif Spec Examples

variable {T : Type} [CommRing T] [LinearOrder T] [IsStrictOrderedRing T]
variable {K : Type*} [Field K] [LinearOrder K] [IsStrictOrderedRing K]
variable {A : Option (Approx T K)} {dbg : Bool} {S : FlatTri T} {v : Vec T} {C : Collapsed T}

/-- What flips check: the half edge is large and the faces on both sides are triangles. -/
def CanFlip (C : Collapsed T) (v : Vec T) (e : HE) : Prop :=
  IsLarge ⟨C.tri, C.fromHalfEdge⟩ v e ∧ TriangleAt C e ∧ TriangleAt C (neg e)

theorem canFlip_iff (hS : Closed dbg S) (hv : v ≠ 0) (h : BuiltCollapsed A dbg S v C) {e : HE} (he : e ∈ C.tri.halfEdges) :
    CanFlip C v e ↔ C.Between e ∧ IsLarge C.seen C.vertical e := by
  have hs := h.sane hS.shut hv
  have he' : e < C.tri.size := by simpa [Tri.halfEdges] using he
  have key : ∀ z < C.tri.size, (TriangleAt C z ↔ C.tri.nextInFace (C.tri.nextInFace (C.tri.nextInFace z)) = z) := by
    intro z hz
    constructor
    · exact fun k => k.three
    · intro k
      have k := hs.good.isTri hz k
      refine ⟨k.1, ⟨fun j => k.ne.1 j.symm, fun j => ?_⟩, k.2.1, k.2.2⟩
      have j2 : C.tri.faces.fwd z = z := hs.good.linked.hf.inj j.symm
      exact k.ne.1 j2
  unfold CanFlip Collapsed.Between
  rw [key e he', key (neg e) (hs.good.neg_lt he'), hs.vertical]
  exact and_comm

/-- Flips succeed, without any failing assertion, exactly if the half edge can be flipped. Otherwise, they throw an exception. -/
theorem succeeds (hS : Closed dbg S) (hv : v ≠ 0) (h : BuiltCollapsed A dbg S v C) {e : HE} (he : e ∈ C.tri.halfEdges) :
    ((C.flip A dbg e).2 = .ok () ↔ CanFlip C v e) ∧ ((C.flip A dbg e).2 = .error .invalidArgument ↔ ¬ CanFlip C v e) := by
  have hs := h.sane hS.shut hv
  have he' : e < C.tri.size := by simpa [Tri.halfEdges] using he
  rw [canFlip_iff hS hv h he]
  by_cases k : C.Between e ∧ IsLarge C.seen C.vertical e
  · obtain ⟨C', c1, c2⟩ := (Collapsed.flip_spec A dbg hs.good hs.upright he').1 k
    rw [c1]
    exact ⟨⟨fun _ => k, fun _ => rfl⟩, ⟨fun j => (nomatch j), fun j => absurd k j⟩⟩
  · rw [(Collapsed.flip_spec A dbg hs.good hs.upright he').2 k]
    exact ⟨⟨fun j => (nomatch j), fun j => absurd j k⟩, ⟨fun _ => k, fun _ => rfl⟩⟩

/-- When a flip throws, nothing has changed. -/
theorem unchanged (hS : Closed dbg S) (hv : v ≠ 0) (h : BuiltCollapsed A dbg S v C) {e : HE} (he : e ∈ C.tri.halfEdges)
    (hf : (C.flip A dbg e).2 ≠ .ok ()) : (C.flip A dbg e).1 = C := by
  have hs := h.sane hS.shut hv
  have he' : e < C.tri.size := by simpa [Tri.halfEdges] using he
  by_cases k : C.Between e ∧ IsLarge C.seen C.vertical e
  · obtain ⟨C', c1, c2⟩ := (Collapsed.flip_spec A dbg hs.good hs.upright he').1 k
    rw [c1] at hf
    exact absurd rfl hf
  · rw [(Collapsed.flip_spec A dbg hs.good hs.upright he').2 k]

/-- Some half edges can be flipped and some cannot be flipped. -/
example : CanFlip ellBefore steep 0 ∧ ¬ CanFlip ellBefore steep 6 := by
  constructor
  · exact (succeeds flatEll_closed (by decide) ellBefore_built (by decide +kernel)).1.1 (by decide +kernel)
  · exact (succeeds flatEll_closed (by decide) ellBefore_built (by decide +kernel)).2.1 (by decide +kernel)

end Verif.C117
