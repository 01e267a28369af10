import Verif.Lemmas.CollapsedTurn
import Verif.Lemmas.CollapsedExamples

/-!
# C119: turning at a vertex of a collapsed surface
-/

namespace Verif.C119

open Verif Spec Examples

variable {T : Type} [CommRing T] [LinearOrder T] [IsStrictOrderedRing T]
variable {K : Type*} [Field K] [LinearOrder K] [IsStrictOrderedRing K]
variable {A : Option (Approx T K)} {dbg : Bool} {S : FlatTri T} {v : Vec T} {C : Collapsed T}

/-- If the half edges start at the same vertex, what is returned are the connections that are crossed when turning clockwise until the
second half edge is reached for the first time. The search terminates. -/
theorem turn_correct (hS : Closed dbg S) (hv : v ≠ 0) (h : BuiltCollapsed A dbg S v C) {x y : HE} (hx : x ∈ C.tri.halfEdges)
    (hxy : ∃ n, C.tri.previousAtVertex^[n] x = y) :
    ∃ n, C.tri.previousAtVertex^[n] x = y ∧ (∀ i < n, C.tri.previousAtVertex^[i] x ≠ y) ∧ ∀ fuel ≥ C.tri.size,
      C.turn fuel x y = some (.ok ((List.range n).flatMap fun i => C.cross (C.tri.previousAtVertex^[i] x))) := by
  have hs := h.sane hS.shut hv
  have hV := h.vertexes hS.shut hv
  have hwf := hs.good.linked.hv
  have hx' : x < C.tri.size := by simpa [Tri.halfEdges] using hx
  have hlt : ∀ z < C.tri.size, C.tri.previousAtVertex z < C.tri.size := by
    intro z hz
    unfold Tri.previousAtVertex
    rw [← hwf.right z] at hz
    exact hwf.fwd_lt.1 hz
  have hy' : y < C.tri.size := by
    obtain ⟨n, rfl⟩ := hxy
    induction n with
    | zero => exact hx'
    | succ n ih => rw [Function.iterate_succ_apply']; exact hlt _ ih
  obtain ⟨n, h1, h2, h3⟩ := Collapsed.first_time hlt hx' hxy
  refine ⟨n, h2, h3, fun fuel hf => ?_⟩
  obtain ⟨s, t, k1, k2, k3⟩ := Collapsed.same_iff hwf hV hx' hy'
  unfold Collapsed.turn
  rw [k1, k2]
  dsimp only
  rw [if_pos (k3.2 hxy), Collapsed.turnLoop_spec n h2 h3 (lt_of_lt_of_le h1 hf)]
  rfl

/-- Otherwise, an exception is thrown. -/
theorem turn_rejects (hS : Closed dbg S) (hv : v ≠ 0) (h : BuiltCollapsed A dbg S v C) {x y : HE} (hx : x ∈ C.tri.halfEdges)
    (hy : y ∈ C.tri.halfEdges) (hxy : ¬ ∃ n, C.tri.previousAtVertex^[n] x = y) (fuel : ℕ) :
    C.turn fuel x y = some (.error .invalidArgument) := by
  have hs := h.sane hS.shut hv
  have hV := h.vertexes hS.shut hv
  obtain ⟨s, t, k1, k2, k3⟩ := Collapsed.same_iff hs.good.linked.hv hV (by simpa [Tri.halfEdges] using hx)
    (by simpa [Tri.halfEdges] using hy)
  unfold Collapsed.turn
  rw [k1, k2]
  dsimp only
  rw [if_neg (fun k => hxy (k3.1 k))]

/-- Turning by nothing crosses nothing. -/
theorem turn_self (hS : Closed dbg S) (hv : v ≠ 0) (h : BuiltCollapsed A dbg S v C) {x : HE} (hx : x ∈ C.tri.halfEdges) {fuel : ℕ}
    (hf : C.tri.size ≤ fuel) : C.turn fuel x x = some (.ok []) := by
  obtain ⟨n, -, h2, h3⟩ := turn_correct hS hv h hx (y := x) ⟨0, rfl⟩
  have : n = 0 := by
    by_contra k
    exact h2 0 (by omega) rfl
  rw [h3 fuel hf, this]
  rfl

/-- Turns which cross something. -/
example : ellAfter.tri.previousAtVertex^[3] 2 = 7 ∧ 2 ∈ ellAfter.tri.halfEdges ∧ ellAfter.turn 12 2 7 = some (.ok [⟨-1, -2⟩]) := by decide +kernel

/-- There is more than one vertex. -/
example : ellAfter.turn 12 0 5 = some (.error .invalidArgument) := by decide +kernel

end Verif.C119
