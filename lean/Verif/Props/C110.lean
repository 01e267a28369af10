import Verif.Lemmas.FlowResult
import Verif.Lemmas.FlowExamples

/-!
# C110: components with undetected vertical connections can be triangulated

The full property: whenever the perimeter of a component bounds a polygon, the triangulation of the component can be constructed, also
when two vertices of that polygon are on a vertical line, i.e., when there are vertical saddle connections in the component that have
not been detected yet. This is not true when vertices on a vertical line come in an unfortunate order: the algorithm assumes that
vertices with the same horizontal coordinate can be processed in any order.
-/

namespace Verif.C110

open Verif Vec Spec FlowTriangulation Examples

variable {T : Type} [CommRing T] [LinearOrder T] [IsStrictOrderedRing T]
variable {K : Type*} [Field K] [LinearOrder K] [IsStrictOrderedRing K]

/-- The perimeter bounds a polygon; this is `Spec.Perimeter` without any condition on the vertices on a vertical line. -/
structure Bounds (vec : HE → Vec T) (v : Vec T) (bottom top : List Connection) : Prop where
  odd : ∀ c, vec (neg c) = -vec c
  nodup : ((bottom ++ top).map Connection.key).Nodup
  kindBottom : ∀ c ∈ bottom, c.kind ≠ .top
  kindTop : ∀ c ∈ top.head?, c.kind = .top
  direction : v ≠ 0
  three : 3 ≤ bottom.length + top.length
  closed : (bottom.map fun c => vec c.key).sum = (top.reverse.map fun c => -vec c.key).sum
  right : ∀ w ∈ (bottom.map fun c => vec c.key) ++ top.reverse.map fun c => -vec c.key, 0 ≤ cross w v
  left : ∀ w ∈ (bottom.map fun c => vec c.key).head?, 0 < cross w v
  last : ∀ w ∈ (top.reverse.map fun c => -vec c.key).getLast?, 0 < cross w v
  distinct : (corners (bottom.map fun c => vec c.key) (top.reverse.map fun c => -vec c.key)).Nodup
  below : ∀ s ∈ sides 0 (top.reverse.map fun c => -vec c.key), 0 < cross (s.2 - s.1) v →
    ∀ q ∈ (walk 0 (bottom.map fun c => vec c.key)).dropLast,
      0 ≤ cross (q - s.1) v → 0 ≤ cross (s.2 - q) v → cross (s.2 - s.1) (q - s.1) < 0
  above : ∀ s ∈ sides 0 (bottom.map fun c => vec c.key), 0 < cross (s.2 - s.1) v →
    ∀ q ∈ (walk 0 (top.reverse.map fun c => -vec c.key)).dropLast,
      0 ≤ cross (q - s.1) v → 0 ≤ cross (s.2 - q) v → 0 < cross (s.2 - s.1) (q - s.1)

/-- The full property for a perimeter. -/
def CanTriangulate (dbg : Bool) (vec : HE → Vec T) (v : Vec T) (bottom top : List Connection) : Prop :=
  ∃ R, make (none : Option (Approx T ℚ)) dbg vec v (bottom ++ top) = .ok R

/-- The triangulation can be constructed when the vertices on a vertical line, the ones at the bottom first, are all ordered in the same
direction, in particular when no three of them are on a vertical line. -/
theorem can_triangulate_partial (dbg : Bool) {vec : HE → Vec T} {v : Vec T} {bottom top : List Connection}
    (h : Bounds vec v bottom top)
    (hl : ∀ p q r, [p, q, r].Sublist (corners (bottom.map fun c => vec c.key) (top.reverse.map fun c => -vec c.key)) →
      cross (q - p) v = 0 → cross (r - q) v = 0 → 0 < dot (q - p) (r - q)) : CanTriangulate dbg vec v bottom top := by
  obtain ⟨R, N, h1, -⟩ := make_spec (none : Option (Approx T ℚ)) dbg h.odd h.nodup h.kindBottom h.kindTop (v := v) (by
    rw [List.map_map, ← List.map_reverse, List.map_map]
    exact ⟨h.direction, by simpa using h.three, h.closed, h.right, h.left, h.last, h.distinct, hl, h.below, h.above⟩)
  exact ⟨R, h1⟩

def badVec : HE → Vec ℤ
  | 0 => ⟨5, 0⟩ | 1 => ⟨-5, 0⟩ | 2 => ⟨3, 1⟩ | 3 => ⟨-3, -1⟩ | 4 => ⟨-3, 6⟩ | 5 => ⟨3, -6⟩ | 6 => ⟨0, 3⟩ | 7 => ⟨0, -3⟩
  | 8 => ⟨-4, -1⟩ | 9 => ⟨4, 1⟩ | 10 => ⟨-1, -9⟩ | 11 => ⟨1, 9⟩ | _ => 0

def badBottom : List Connection := [⟨0, .bottom⟩, ⟨2, .bottom⟩]
def badTop : List Connection := [⟨4, .top⟩, ⟨6, .parallel⟩, ⟨8, .top⟩, ⟨10, .top⟩]

/-- The polygon with the vertices (0, 0), (5, 0), (8, 1), (5, 7), (5, 10), (1, 9) cannot be triangulated. -/
theorem not_can_triangulate : ∃ (vec : HE → Vec ℤ) (v : Vec ℤ) (bottom top : List Connection), Bounds vec v bottom top ∧
    ∀ dbg, ¬ CanTriangulate dbg vec v bottom top := by
  refine ⟨badVec, ⟨0, 1⟩, badBottom, badTop, ⟨?_, by decide, by decide, by decide, by decide, by decide, by decide +kernel,
    by decide +kernel, by decide, by decide, by decide +kernel, by decide +kernel, by decide +kernel⟩, ?_⟩
  · intro c
    by_cases h : c < 12
    · revert c; decide
    · have h1 : ∀ c, ¬ c < 12 → badVec c = 0 := by
        intro c hc
        unfold badVec
        split <;> first | rfl | omega
      rw [h1 c h, h1]
      · rfl
      · rw [neg_def]; split <;> omega
  · rintro dbg ⟨R, hR⟩
    have h1 : ∀ dbg, (make (none : Option (Approx ℤ ℚ)) dbg badVec ⟨0, 1⟩ (badBottom ++ badTop)).map (fun _ => ()) =
      .error .invalidArgument := by decide +kernel
    have h2 := h1 dbg
    rw [hR] at h2
    cases h2

/-- The hypotheses of the partial theorem hold for a torus. -/
example : Bounds flatTorus.vec ⟨1, 3⟩ torusBottom torusTop ∧
    ∀ p q r, [p, q, r].Sublist (corners (torusBottom.map fun c => flatTorus.vec c.key) (torusTop.reverse.map fun c => -flatTorus.vec c.key)) →
      cross (q - p) ⟨1, 3⟩ = 0 → cross (r - q) ⟨1, 3⟩ = 0 → 0 < dot (q - p) (r - q) := by
  have h := torus_perimeter
  exact ⟨⟨h.odd, h.nodup, h.kindBottom, h.kindTop, h.polygon.direction, h.polygon.three, h.polygon.closed, h.polygon.right,
    h.polygon.left, h.polygon.last, h.polygon.distinct, h.polygon.below, h.polygon.above⟩, h.polygon.line⟩

end Verif.C110
