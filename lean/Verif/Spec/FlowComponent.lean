import Verif.Spec.FlowTriangulation

/-!
# Specification: holonomy of flow components
-/

namespace Verif.Spec

open Verif Vec FlowTriangulation

variable {T : Type} [CommRing T]

/-- The connection `c` on the perimeter starts at the point `p`, when the perimeter starts at the origin. -/
def StartsAt (vec : HE → Vec T) (perimeter : List Connection) (c : Connection) (p : Vec T) : Prop :=
  ∃ l l', perimeter = l ++ c :: l' ∧ p = (l.map fun c => vec c.key).sum

/-- The translation by `h` maps the connection `c` at the bottom of the perimeter to its counterpart at the top. -/
def Translates (vec : HE → Vec T) (perimeter : List Connection) (c : Connection) (h : Vec T) : Prop :=
  ∃ d ∈ perimeter, d.kind = .top ∧ d.key = neg c.key ∧ ∃ p q, StartsAt vec perimeter c p ∧ StartsAt vec perimeter d q ∧
    p + h = q + vec d.key ∧ p + vec c.key + h = q

variable [LinearOrder T]

/-- The perimeters of the components of a decomposition of a surface into flow components. Each component is given by the bottom and the
top of its perimeter. -/
structure Decomposition (vec : HE → Vec T) (v : Vec T) (components : List (List Connection × List Connection)) : Prop where
  /-- The components are polygons. -/
  perimeter : ∀ x ∈ components, Perimeter vec v x.1 x.2
  /-- No component is a triangle. -/
  four : ∀ x ∈ components, 4 ≤ (x.1 ++ x.2).length
  /-- No connection shows up twice. -/
  nodup : ((components.map fun x => x.1 ++ x.2).flatten.map Connection.key).Nodup
  /-- Connections come in pairs. -/
  closed : ∀ c ∈ (components.map fun x => x.1 ++ x.2).flatten.map Connection.key,
    neg c ∈ (components.map fun x => x.1 ++ x.2).flatten.map Connection.key

/-- The number of half edges in a triangulation of a surface without boundary that consists of the given components: the half edges on
the perimeters and the half edges that cut the polygons into triangles. -/
def halfEdgeCount (components : List (List Connection × List Connection)) : ℕ :=
  (components.map fun x => (x.1 ++ x.2).length + 2 * ((x.1 ++ x.2).length - 3)).sum

end Verif.Spec
