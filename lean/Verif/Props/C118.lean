import Verif.Lemmas.CollapsedCache
import Verif.Lemmas.CollapsedMake
import Verif.Lemmas.CollapsedExamples

/-!
# C118: answers of a vertical on a collapsed surface

The full property: what a vertical of a collapsed surface returns does not depend on what has been asked before. This is not true: values
are cached for a half edge and its negative at the same time. However, on a collapsed surface, half edges are not the negatives of their
negatives, so what is returned by `project` and `orientation` depends on whether the half edge or its negative has been asked for first.
-/

namespace Verif.C118

open Verif Spec Examples Vertical Tri

variable {T : Type} [CommRing T] [LinearOrder T] [IsStrictOrderedRing T]
variable {K : Type*} [Field K] [LinearOrder K] [IsStrictOrderedRing K]
variable {A : Option (Approx T K)} {dbg : Bool} {S : FlatTri T} {v : Vec T} {C : Collapsed T}

/-- Something that is asked for a half edge of a collapsed surface. -/
inductive Query where
  | projectPerpendicular (e : HE)
  | project (e : HE)
  | orientation (e : HE)
  | ccw (e : HE)
  | large (e : HE)

/-- The half edge. -/
def Query.halfEdge : Query → HE
  | .projectPerpendicular e | .project e | .orientation e | .ccw e | .large e => e

/-- The vertical after a query. -/
def ask (A : Option (Approx T K)) (C : Collapsed T) (V : Vertical T) : Query → Vertical T
  | .projectPerpendicular e => (projectPerpendicularAt ⟨C.tri, C.fromHalfEdge⟩ e V).2
  | .project e => (projectAt ⟨C.tri, C.fromHalfEdge⟩ e V).2
  | .orientation e => (orientationAt ⟨C.tri, C.fromHalfEdge⟩ A e V).2
  | .ccw e => (ccwAt ⟨C.tri, C.fromHalfEdge⟩ A e V).2
  | .large e => (largeAt ⟨C.tri, C.fromHalfEdge⟩ e V).2

theorem asked (h : C.Good) {V : Vertical T} (hV : Collapsed.Caches C V) {q : List Query} (hq : ∀ x ∈ q, x.halfEdge ∈ C.tri.halfEdges) :
    Collapsed.Caches C (q.foldl (ask A C) V) := by
  induction q generalizing V with
  | nil => exact hV
  | cons x q ih =>
    refine ih ?_ fun y hy => hq y (List.mem_cons_of_mem _ hy)
    have hx : x.halfEdge < C.tri.size := by simpa [Tri.halfEdges] using hq x List.mem_cons_self
    cases x with
    | projectPerpendicular e => exact (Collapsed.perpendicular_caches h hx hV).2
    | project e => exact Collapsed.parallel_caches hV
    | orientation e => exact Collapsed.orientation_caches hV
    | ccw e => exact (Collapsed.ccw_caches h hx hV).2
    | large e => exact (Collapsed.large_caches h hx V hV).2

/-- The full property. -/
def Independent (A : Option (Approx T K)) (C : Collapsed T) (v : Vec T) : Prop :=
  ∀ V, Vertical.make v = .ok V → ∀ q : List Query, (∀ x ∈ q, x.halfEdge ∈ C.tri.halfEdges) → ∀ e ∈ C.tri.halfEdges,
    ((largeAt ⟨C.tri, C.fromHalfEdge⟩ e (q.foldl (ask A C) V)).1 = true ↔ IsLarge ⟨C.tri, C.fromHalfEdge⟩ v e) ∧
    (projectPerpendicularAt ⟨C.tri, C.fromHalfEdge⟩ e (q.foldl (ask A C) V)).1 = projectPerpendicular v (C.fromHalfEdge e) ∧
    (ccwAt ⟨C.tri, C.fromHalfEdge⟩ A e (q.foldl (ask A C) V)).1 = Vec.ccw A v (C.fromHalfEdge e) ∧
    (projectAt ⟨C.tri, C.fromHalfEdge⟩ e (q.foldl (ask A C) V)).1 = project v (C.fromHalfEdge e) ∧
    (orientationAt ⟨C.tri, C.fromHalfEdge⟩ A e (q.foldl (ask A C) V)).1 = Vec.orientation A v (C.fromHalfEdge e)

/-- What is returned by `large`, `projectPerpendicular` and `ccw` is right no matter what has been asked before. Missing are `project` and
`orientation` which can be wrong. -/
theorem independent_partial (hS : Closed dbg S) (hv : v ≠ 0) (h : BuiltCollapsed A dbg S v C) {V : Vertical T} (hV : Vertical.make v = .ok V)
    {q : List Query} (hq : ∀ x ∈ q, x.halfEdge ∈ C.tri.halfEdges) {e : HE} (he : e ∈ C.tri.halfEdges) :
    ((largeAt ⟨C.tri, C.fromHalfEdge⟩ e (q.foldl (ask A C) V)).1 = true ↔ IsLarge ⟨C.tri, C.fromHalfEdge⟩ v e) ∧
    (projectPerpendicularAt ⟨C.tri, C.fromHalfEdge⟩ e (q.foldl (ask A C) V)).1 = projectPerpendicular v (C.fromHalfEdge e) ∧
    (ccwAt ⟨C.tri, C.fromHalfEdge⟩ A e (q.foldl (ask A C) V)).1 = Vec.ccw A v (C.fromHalfEdge e) := by
  have hs := h.sane hS.shut hv
  have he' : e < C.tri.size := by simpa [Tri.halfEdges] using he
  obtain rfl := hs.vertical
  have hc := asked (A := A) hs.good (Collapsed.caches_make hV) hq
  refine ⟨(Collapsed.large_caches hs.good he' _ hc).1, ?_, ?_⟩
  · rw [projectPerpendicular_eq]
    exact (Collapsed.perpendicular_caches hs.good he' hc).1
  · rw [Vec.ccw_eq]
    exact (Collapsed.ccw_caches hs.good he' hc).1

example (q : List Query) (hq : ∀ x ∈ q, x.halfEdge ∈ ellAfter.tri.halfEdges) {V : Vertical ℤ} (hV : Vertical.make steep = .ok V) :
    (projectPerpendicularAt ⟨ellAfter.tri, ellAfter.fromHalfEdge⟩ 0 (q.foldl (ask (none : Option (Approx ℤ ℚ)) ellAfter) V)).1 = 1 :=
  (independent_partial flatEll_closed (by decide) ellAfter_built hV hq (by decide +kernel)).2.1.trans (by decide +kernel)

/-- After asking for a half edge, a different projection is returned for its negative. -/
theorem depends : ∃ V, Vertical.make steep = .ok V ∧ 0 ∈ ellAfter.tri.halfEdges ∧ 1 ∈ ellAfter.tri.halfEdges ∧
    (projectAt ⟨ellAfter.tri, ellAfter.fromHalfEdge⟩ 1 V).1 = -3 ∧
    (projectAt ⟨ellAfter.tri, ellAfter.fromHalfEdge⟩ 1 (ask (none : Option (Approx ℤ ℚ)) ellAfter V (.project 0))).1 = 2 :=
  ⟨_, rfl, by decide +kernel⟩

/-- After asking for a half edge, even the wrong orientation is returned for its negative. -/
theorem depends_orientation : ∃ V, Vertical.make steep = .ok V ∧ 0 ∈ ellAfter.tri.halfEdges ∧ 1 ∈ ellAfter.tri.halfEdges ∧
    (orientationAt ⟨ellAfter.tri, ellAfter.fromHalfEdge⟩ (none : Option (Approx ℤ ℚ)) 1 V).1 = .opposite ∧
    (orientationAt ⟨ellAfter.tri, ellAfter.fromHalfEdge⟩ (none : Option (Approx ℤ ℚ)) 1
      (ask (none : Option (Approx ℤ ℚ)) ellAfter V (.orientation 0))).1 = .same :=
  ⟨_, rfl, by decide +kernel⟩

/-- So the full property does not hold for this surface. -/
theorem not_independent : BuiltCollapsed (none : Option (Approx ℤ ℚ)) true flatEll steep ellAfter ∧
    ¬ Independent (none : Option (Approx ℤ ℚ)) ellAfter steep := by
  refine ⟨ellAfter_built, fun h => ?_⟩
  obtain ⟨V, h1, h2, h3, h4, h5⟩ := depends
  have h6 := (h V h1 [.project 0] (by simpa [Query.halfEdge] using h2) 1 h3).2.2.2.1
  rw [show [Query.project 0].foldl (ask (none : Option (Approx ℤ ℚ)) ellAfter) V =
    ask (none : Option (Approx ℤ ℚ)) ellAfter V (.project 0) from rfl, h5] at h6
  exact absurd h6 (by decide +kernel)

end Verif.C118
