import Verif.Model.Lengths
import Verif.Spec.Vector

/-!
# Lengths of labels
-/

namespace Verif.Spec

open Verif

variable {T : Type} [CommRing T] [LinearOrder T]

/-- The extent of a vector to the right of the vertical direction. -/
def extent (vertical w : Vec T) : T := Vec.cross w vertical

/-- The length of a label; labels that are not present have length zero. -/
def labelLength (L : Lengths T) (l : ℕ) : T := (L.lengths l).elim 0 (extent L.vertical)

/-- The sum is the sum of the lengths of the labels on the stack. -/
def SumOfStack (L : Lengths T) : Prop := L.sum = (L.stack.map (labelLength L)).sum

/-- There is a label, it is the index of an edge, and it has a positive length. -/
def HasLabel (L : Lengths T) (l : ℕ) : Prop := L.lengths l ≠ none ∧ l < 2 ^ 30 ∧ 0 < labelLength L l

/-- All labels that are present have a positive length. -/
def PositiveLengths (L : Lengths T) : Prop := ∀ l, L.lengths l ≠ none → HasLabel L l

/-- The contours are in a position such that the labels on the stack can be subtracted from the label `m`.

The label `m` is the leftmost label of a contour of the component `c`. The labels on the stack are, in this order, the
leftmost labels of the other contour of `c`, but not all of the labels of that contour. The connections to cross for a
label have the length of that label; they are oriented from left to right on the bottom contour and from right to left on
the top contour. Connections to the left of `m` are vertical. -/
structure Subtractable (cs : List (ContourPair T)) (c : ContourPair T) (top : Bool) (L : Lengths T) (m : ℕ) : Prop where
  /-- The component is the only one with the label leftmost. -/
  mem : c ∈ cs
  unique : ∀ d ∈ cs, (d.top.head?.map ContourEdge.label = some m ∨ d.bottom.head?.map ContourEdge.label = some m) → d = c
  onTop : top = true ↔ c.top.head?.map ContourEdge.label = some m
  onBottom : top = false → c.bottom.head?.map ContourEdge.label = some m
  vertical : ∀ a ∈ (if top then c.top else c.bottom).head?, ∀ v ∈ a.left, extent L.vertical v = 0
  nonempty : L.stack ≠ []
  stack : ∃ subtrahends rest, (if top then c.bottom else c.top) = subtrahends ++ rest ∧ rest ≠ [] ∧
    subtrahends.map ContourEdge.label = L.stack.reverse ∧
    ∀ s ∈ subtrahends, (s.cross.map (extent L.vertical)).sum =
      if top then labelLength L s.label else -labelLength L s.label
  nodup : L.stack.Nodup

/-- How often a length fits into another one. -/
def IsFloorDiv (floorDiv : T → T → ℤ) : Prop :=
  ∀ a b : T, 0 < b → (floorDiv a b : T) * b ≤ a ∧ a < ((floorDiv a b : T) + 1) * b

end Verif.Spec
