import Verif.Lemmas.VerticalComponents
import Verif.Lemmas.FlatExamples

/-!
# C76: components of a vertical direction

The full property: the lists returned by `components` are a partition of the half edges into the sets of half edges that
can be joined without crossing vertical edges. This is not true when an edge is vertical. (When no edge is vertical,
`components_disjoint_partial` proves the full property.)
-/

namespace Verif.C76

open Verif Spec Tri FlatTri Vec Vertical Examples

variable {T : Type} [CommRing T] [LinearOrder T] [IsStrictOrderedRing T]
variable {K : Type*} [Field K] [LinearOrder K] [IsStrictOrderedRing K]

/-- The full property for a surface and a vertical direction. -/
def Partition (S : FlatTri T) (v : Vec T) (cs : List (List HE)) : Prop :=
  (∀ e, e ∈ S.tri.halfEdges ↔ ∃ c ∈ cs, e ∈ c) ∧
  (∀ c ∈ cs, c.Nodup ∧ ∃ s ∈ c, ∀ y, y ∈ c ↔ Joined S v s y) ∧
  cs.Pairwise List.Disjoint

/-- `components` terminates. It returns sets of half edges that can be joined, and together these are all half edges.
Different sets only have vertical half edges in common. -/
theorem components_partial (A : Option (Approx T K)) {dbg : Bool} {S : FlatTri T} (h : S.tri.Reachable dbg) (hf : IsFlat S)
    (v : Vec T) : ∃ N, ∀ fuel ≥ N, ∃ cs, components S A v fuel = some cs ∧
      (∀ e, e ∈ S.tri.halfEdges ↔ ∃ c ∈ cs, e ∈ c) ∧
      (∀ c ∈ cs, c.Nodup ∧ ∃ s ∈ c, ∀ y, y ∈ c ↔ Joined S v s y) ∧
      cs.Pairwise fun c d => ∀ x ∈ c, x ∈ d → cross (S.vec x) v = 0 := by
  have hF := IsFlat.flat h hf
  refine ⟨S.tri.size + 1, fun n hn => ?_⟩
  obtain ⟨cs, h1, h2, h3⟩ := components_components hF.tame A v (n := n) (by omega)
  refine ⟨cs, h1, fun e => ⟨fun he => h3 e (mem_halfEdges.1 he), ?_⟩, fun c hc => ?_, h2.pair⟩
  · rintro ⟨c, hc, he⟩
    obtain ⟨-, s, -, hs, q⟩ := h2.comp c hc
    rw [q] at he
    refine mem_halfEdges.2 ?_
    clear hc q
    induction he with
    | refl => exact hs
    | across _ _ ih => exact (hF.coh.neg_lt _).2 ih
    | face _ _ hx ih =>
      rcases hx with rfl | rfl | rfl
      · exact ih
      · exact next_lt hF ih
      · exact next_lt hF (next_lt hF ih)
  · obtain ⟨k, s, hs, -, q⟩ := h2.comp c hc
    exact ⟨k, s, hs, q⟩

/-- When no edge is vertical, then the components are a partition. -/
theorem components_disjoint_partial (A : Option (Approx T K)) {dbg : Bool} {S : FlatTri T} (h : S.tri.Reachable dbg)
    (hf : IsFlat S) {v : Vec T} (hv : ∀ e ∈ S.tri.halfEdges, cross (S.vec e) v ≠ 0) :
    ∃ N, ∀ fuel ≥ N, ∃ cs, components S A v fuel = some cs ∧ Partition S v cs := by
  obtain ⟨N, hN⟩ := components_partial A h hf v
  refine ⟨N, fun n hn => ?_⟩
  obtain ⟨cs, h1, h2, h3, h4⟩ := hN n hn
  refine ⟨cs, h1, h2, h3, ?_⟩
  rw [List.pairwise_iff_forall_sublist] at h4 ⊢
  intro c d hs x hx hx'
  exact hv x ((h2 x).2 ⟨c, hs.subset (by simp), hx⟩) (h4 hs x hx hx')

/-- The full property does not hold: A vertical half edge can be a component of its own and also part of another
component. -/
theorem components_not_partition : ∃ (S : FlatTri ℤ) (v : Vec ℤ) (cs : List (List HE)), S.tri.Reachable true ∧ IsFlat S ∧
    v ≠ 0 ∧ (∃ N, ∀ fuel ≥ N, components S (none : Option (Approx ℤ ℚ)) v fuel = some cs) ∧ ¬ Partition S v cs := by
  have h : components flatTorus (none : Option (Approx ℤ ℚ)) ⟨1, 0⟩ 7 = some [[0], [1], [1, 0, 5, 4, 3, 2]] := by decide +kernel
  refine ⟨flatTorus, ⟨1, 0⟩, _, torus_reachable true, flatTorus_isFlat, by decide, ⟨7, fun n hn => loop_mono hn h⟩, ?_⟩
  rintro ⟨-, -, h⟩
  revert h
  simp [List.Disjoint]

/-! ### Concrete cases -/

example : flatTorus.tri.Reachable true ∧ IsFlat flatTorus ∧ ∀ e ∈ flatTorus.tri.halfEdges,
    cross (flatTorus.vec e) ⟨1, 3⟩ ≠ 0 := ⟨torus_reachable true, flatTorus_isFlat, by decide⟩

example : components flatTorus (none : Option (Approx ℤ ℚ)) ⟨1, 3⟩ 7 = some [[4, 5, 2, 3, 1, 0]] := by decide +kernel

end Verif.C76
