import Verif.Model.Triangulation

/-!
# What it means to collapse an edge

When the edge `e` is collapsed, the two faces at `e` disappear and the other two sides of each of them become one.
-/

namespace Verif.Spec

open Verif

/-- The half edges `h` and `h'` become one when `e` is collapsed. -/
inductive Glued (T : Tri) (e : HE) : HE → HE → Prop
  /-- The remaining sides of the face of `e`. -/
  | left : Glued T e (T.nextInFace e) (neg (T.previousInFace e))
  /-- The remaining sides of the face of `-e`. -/
  | right : Glued T e (neg (T.previousInFace (neg e))) (T.nextInFace (neg e))
  | neg {h h' : HE} : Glued T e h h' → Glued T e (neg h) (neg h')
  | refl (h : HE) : Glued T e h h
  | symm {h h' : HE} : Glued T e h h' → Glued T e h' h
  | trans {h h' h'' : HE} : Glued T e h h' → Glued T e h' h'' → Glued T e h h''

/-- The half edges of the face of `e`. -/
def InFace (T : Tri) (e h : HE) : Prop := h = e ∨ h = T.nextInFace e ∨ h = T.previousInFace e

/-- The surface `T'` is `T` with the edge `e` collapsed. The half edge `h` is called `ψ h` in `T'`. -/
structure Collapses (T : Tri) (e : HE) (T' : Tri) (ψ : HE → HE) : Prop where
  /-- The half edges of the collapsed surface are the images of the half edges other than `e` and `-e`. -/
  halfEdges : ∀ h', h' ∈ T'.halfEdges ↔ ∃ h ∈ T.halfEdges, h ≠ e ∧ h ≠ neg e ∧ ψ h = h'
  /-- Opposite half edges are opposite. -/
  opposite : ∀ h ∈ T.halfEdges, ψ (neg h) = neg (ψ h)
  /-- Only the remaining sides of the faces at `e` have been identified. -/
  glued : ∀ h ∈ T.halfEdges, ∀ h' ∈ T.halfEdges, ψ h = ψ h' ↔ Glued T e h h'
  /-- All the other faces are still there. -/
  faces : ∀ h ∈ T.halfEdges, ¬ InFace T e h → ¬ InFace T (neg e) h → T'.nextInFace (ψ h) = ψ (T.nextInFace h)
  /-- There are no faces other than these. -/
  others : ∀ h' ∈ T'.halfEdges, ∃ h ∈ T.halfEdges, ¬ InFace T e h ∧ ¬ InFace T (neg e) h ∧ ψ h = h'

/-- The edge `e` can be collapsed to a triangulation: the faces at `e` are different, no two sides of a face are glued to each other,
the vertices at the ends of `e` have more than two half edges and the faces at `e` do not form a torus. -/
structure Collapsible (T : Tri) (e : HE) : Prop where
  mem : e ∈ T.halfEdges
  closed : T.hasBoundary = false
  /-- The half edge `-e` is not in the face of `e`. -/
  apart : ¬ InFace T e (neg e)
  /-- The sides of the faces are not glued to each other. -/
  left : T.nextInFace e ≠ neg (T.previousInFace e)
  right : T.nextInFace (neg e) ≠ neg (T.previousInFace (neg e))
  /-- The half edges at the vertices at the ends of `e` are not only `e` and one other. -/
  source : T.nextInFace (neg e) ≠ neg (T.previousInFace e)
  target : T.nextInFace e ≠ neg (T.previousInFace (neg e))
  /-- The faces do not form a torus. -/
  torus : ¬ (T.nextInFace (neg e) = neg (T.nextInFace e) ∧ T.previousInFace (neg e) = neg (T.previousInFace e))

end Verif.Spec
