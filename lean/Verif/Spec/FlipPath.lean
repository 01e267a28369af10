import Verif.Model.FlipPath
import Verif.Spec.LinearDeformation
import Verif.Spec.Path

/-!
# Specification: segments before and after a flip

A flip replaces the half edges `e` and `-e`. All other half edges are in the same place before and after the flip. So a
direction at a vertex can be described by the vector and the first half edge, other than `e` and `-e`, that one meets when
turning clockwise from that direction.
-/

namespace Verif.Spec

open Vec

variable {T : Type} [CommRing T] [LinearOrder T]

/-- A direction in the corner at `x` of `S` and a direction in the corner at `x'` of `S'` are at the same place: turning
clockwise, they first meet the same half edge other than `e` and `-e`. -/
def SameCorner (S S' : FlatTri T) (e x x' : HE) : Prop :=
  ∃ y, y ≠ e ∧ y ≠ neg e ∧ (x = y ∨ (x = e ∨ x = neg e) ∧ S.tri.nextAtVertex y = x) ∧
    (x' = y ∨ (x' = e ∨ x' = neg e) ∧ S'.tri.nextAtVertex y = x')

/-- The source and the target of the segment of a path on `S` are in agreement with its vector. -/
def IsConn (S : FlatTri T) (s : Conn T) : Prop := LeavesCorner S s.source s.vector ∧ LeavesCorner S s.target (-s.vector)

/-- The segment `s'` on `S'` is in the same place as the segment `s` on `S`. -/
structure SameConn (S S' : FlatTri T) (e : HE) (s s' : Conn T) : Prop where
  vector : s'.vector = s.vector
  source : SameCorner S S' e s.source s'.source
  target : SameCorner S S' e s.target s'.target

/-- The chain of the segment belongs to the surface of the segment: its coefficients are for the half edges of `S`. -/
def ChainOn (S : FlatTri T) (s : Conn T) : Prop := S.chainVector s.chain = s.vector

end Verif.Spec
