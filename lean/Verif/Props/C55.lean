import Verif.Lemmas.ContourPerimeter
import Verif.Lemmas.FlatExamples

/-!
# C55: the contour of a component is traversed from left to right
-/

namespace Verif.C55

open Verif Spec Tri FlatTri Vec Vertical Contour Examples

variable {T : Type} [CommRing T] [LinearOrder T] [IsStrictOrderedRing T]
variable {K : Type*} [Field K] [LinearOrder K] [IsStrictOrderedRing K]

/-- Building the contour above a half edge that goes from left to right terminates without an error. The contour goes from one end of
the half edge to the other, from left to right, without repetitions. -/
theorem contour_correct (A : Option (Approx T K)) {dbg : Bool} {S : FlatTri T} (h : Closed dbg S) {v : Vec T}
    (hv : NoVertical S v) (dbg' : Bool) {e : HE} (he : e ∈ S.tri.halfEdges) (hp : 0 < cross (S.vec e) v) :
    ∃ l N, (∀ n ≥ N, makeContour S A dbg' v n e = some (.ok l)) ∧ RunsAlong S e l ∧ LeftToRight S v l ∧ l.Nodup := by
  rw [mem_halfEdges] at he
  have ht := transverse h.shut hv
  obtain ⟨m, l, hl⟩ := ht.exists_tree e he hp
  obtain ⟨N, hN⟩ := makeContour_tree ht A dbg' hl he hp
  exact ⟨l, N, hN, tree_runs h.shut hl he, fun x hx => ht.desc_pos hp ((ht.mem_tree hl he x).2.1 hx).1, (ht.nodup_tree hl he).2⟩

/-- Building the contours of all components terminates without an error. There is a contour component for each component of the
vertical. It contains a large half edge from left to right, its bottom goes from one end of that half edge to the other, from left to
right, and its top goes back, from right to left. -/
theorem components_correct (A : Option (Approx T K)) {dbg : Bool} {S : FlatTri T} (h : Closed dbg S) {v : Vec T}
    (hv : NoVertical S v) (dbg' : Bool) : ∃ ds N, ∀ n ≥ N, decompose S A dbg' v n = some (.ok ds) ∧
      components S A v n = some (ds.map Component.halfEdges) ∧ ∀ d ∈ ds, d.large ∈ d.halfEdges ∧ IsLarge S v d.large ∧
        0 < cross (S.vec d.large) v ∧ RunsAlong S d.large d.bottomEdges ∧ LeftToRight S v d.bottomEdges ∧
        RunsAlong S (neg d.large) d.topEdges ∧ RightToLeft S v d.topEdges := by
  obtain ⟨ds, cs, h1, -, -, h4, N, h5⟩ := decompose_built (ready h.shut hv) A dbg'
  refine ⟨ds, N, fun n hn => ⟨(h5 n hn).2, h1 ▸ (h5 n hn).1, fun d hd => ?_⟩⟩
  obtain ⟨mu, lu, md, ld, b⟩ := h4 d hd
  exact ⟨b.mem, b.large, b.pos, (b.bottom_runs h.shut hv).1, (b.bottom_runs h.shut hv).2, (b.top_runs h.shut hv).1,
    (b.top_runs h.shut hv).2⟩

/-! ### Concrete cases -/

example : Closed true flatTorus ∧ NoVertical flatTorus ⟨1, 3⟩ ∧ (2 ∈ flatTorus.tri.halfEdges) ∧
    ∀ e ∈ [0, 3, 4], 0 < cross (flatTorus.vec e) ⟨1, 3⟩ :=
  ⟨⟨torus_reachable true, flatTorus_isFlat, by decide⟩, by unfold NoVertical; decide, by decide, by decide⟩

example : decompose flatTorus (none : Option (Approx ℤ ℚ)) true ⟨1, 3⟩ 9 =
    some (.ok [⟨[4, 5, 2, 3, 1, 0], 0, [2, 5], [3, 4]⟩]) := by decide +kernel

example : decompose flatEll (none : Option (Approx ℤ ℚ)) true ⟨1, 3⟩ 29 =
    some (.ok [⟨[12, 13, 8, 9, 2, 3, 14, 15, 6, 7, 5, 4, 16, 17, 10, 11, 1, 0], 2, [6, 15], [9, 14]⟩]) := by decide +kernel

end Verif.C55
