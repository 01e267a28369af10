import Verif.Model.SaddleConnections
import Verif.Spec.Saddle

/-!
# Specification: restrictions of the search for saddle connections

A saddle connection is given by its vector and the half edge at its source such that the vector is in the corner between
that half edge and the next one.
-/

namespace Verif.Spec

open Vec

variable {T : Type} [CommRing T] [LinearOrder T] (f : T →+* ℝ) (S : FlatTri T) (θ : HE → ℝ)

/-- The angles of all the corners of the surface. -/
abbrev AllCorners : Prop := Corners f S (Finset.range S.tri.size) θ

/-- A direction in some corner of the surface. -/
def IsDirection (c : HE × Vec T) : Prop := c.1 < S.tri.size ∧ ∃ σ, InCorner f S θ c.1 σ c.2

/-- Turning counterclockwise from `b`, one gets to `v` before one gets to `e`. When `b` and `e` are the same direction
then `v` must be that direction as well. -/
def Between (b e v : Vec T) : Prop := ∃ α β, Turns (b.map f) α (e.map f) ∧ Turns (b.map f) β (v.map f) ∧
  0 ≤ α ∧ α < 2 * Real.pi ∧ 0 ≤ β ∧ (β < α ∨ α = 0 ∧ β = 0)

/-- Turning counterclockwise around a vertex of the surface from `b`, one gets to `c` before one gets to `e`. When `b` and
`e` are the same direction then `c` must be that direction as well. -/
def BetweenAround (b e c : HE × Vec T) : Prop := ∃ σ τ ρ, InCorner f S θ b.1 σ b.2 ∧ InCorner f S θ e.1 τ e.2 ∧
  InCorner f S θ c.1 ρ c.2 ∧ (∃ α, TurnsTo S θ b.1 σ α e.1 τ) ∧
  ∃ β, TurnsTo S θ b.1 σ β c.1 ρ ∧ ∀ α, TurnsTo S θ b.1 σ α e.1 τ → β < α ∨ α = 0 ∧ β = 0

/-- The restriction that a call should make. -/
def Admits (c : HE × Vec T) : SaddleConnections.Restriction T → Prop
  | .bound b => dot c.2 c.2 ≤ (b.square : T)
  | .lowerBound b => (b.square : T) < dot c.2 c.2
  | .source v => c.1 ∈ v
  | .halfEdge e => c.1 = e
  | .vectors b e => Between f b e c.2
  | .connections b e => BetweenAround f S θ b e c

/-- The arguments of a call make sense. -/
def ValidRestriction : SaddleConnections.Restriction T → Prop
  | .bound _ => True
  | .lowerBound b => 0 ≤ b.square
  | .source v => v ∈ S.tri.vertexes
  | .halfEdge _ => True
  | .vectors b e => b ≠ 0 ∧ e ≠ 0
  | .connections b e => IsDirection f S θ b ∧ IsDirection f S θ e

/-- The saddle connections that a search does not leave out: they are in a sector, not longer than the bound and longer
than the lower bound, saddle_connections_iterator.cc:93. -/
def Searched {K : Type} [Field K] [LinearOrder K] [IsStrictOrderedRing K] (A : Option (Approx T K))
    (s : SaddleConnections.State T) (c : HE × Vec T) : Prop :=
  (∃ t ∈ s.sectors, SaddleConnections.contains A t c.1 c.2 = .ok true) ∧
  (∀ r, s.searchRadius = some r → Vec.gtBound A c.2 r = false) ∧ Vec.gtBound A c.2 s.lowerBound = true

end Verif.Spec
