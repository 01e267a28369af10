import Verif.Lemmas.CollapsedMake
import Verif.Lemmas.CollapsedExamples

/-!
# C114: the area of collapsed surfaces
-/

namespace Verif.C114

open Verif Spec Examples

variable {T : Type} [CommRing T] [LinearOrder T] [IsStrictOrderedRing T]
variable {K : Type*} [Field K] [LinearOrder K] [IsStrictOrderedRing K]
variable {A : Option (Approx T K)} {dbg : Bool} {S : FlatTri T} {v : Vec T} {C : Collapsed T}

/-- The area of the triangles and of what has been collapsed adds up to the area of the original surface; no assertion fails. -/
theorem area (hS : Closed dbg S) (hv : v ≠ 0) (h : BuiltCollapsed A dbg S v C) : Collapsed.area2 dbg C = .ok S.area2 := by
  have hs := h.sane hS.shut hv
  obtain ⟨a, h1, h2⟩ := hs.good.area2_eq dbg
  rw [h1]
  rw [hs.total] at h2
  exact congrArg _ (mul_left_cancel₀ (by norm_num : (3 : T) ≠ 0) h2)

example : Collapsed.area2 true ellAfter = .ok 6 :=
  (area flatEll_closed (by decide) ellAfter_built).trans (by decide +kernel)

/-- Something has been collapsed here. -/
example : ellAfter.cross 0 = [⟨-1, -2⟩] := by decide +kernel

end Verif.C114
