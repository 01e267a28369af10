import Verif.Model.FlowConnection

/-!
# Specification of the connections of a flow decomposition
-/

namespace Verif.Spec

open FlowTriangulation

/-- The connection is on the perimeter of the component at position `i`. -/
def OnPerimeter (perimeters : List (List Connection)) (i : ℕ) (c : Connection) : Prop := ∃ p, perimeters[i]? = some p ∧ c ∈ p

/-- The kinds of the connections on the left and on the right. -/
def VerticalKind (k : Kind) : Prop := k = .parallel ∨ k = .antiparallel

/-- The kinds of connections on opposite sides. -/
def OppositeKinds (k k' : Kind) : Prop :=
  k = .parallel ∧ k' = .antiparallel ∨ k = .antiparallel ∧ k' = .parallel ∨ k = .bottom ∧ k' = .top ∨ k = .top ∧ k' = .bottom

instance : DecidablePred VerticalKind := fun _ => inferInstanceAs (Decidable (_ ∨ _))

instance : DecidableRel OppositeKinds := fun _ _ => inferInstanceAs (Decidable (_ ∨ _))

/-- What intervalxt has to provide: each connection shows up at most once in the perimeters, and so does its negative which is on
the opposite side; negatives of connections that are not vertical are on the perimeter of the same component. -/
structure Perimeters (perimeters : List (List Connection)) : Prop where
  nodup : ∀ p ∈ perimeters, (p.map Connection.key).Nodup
  once : ∀ i j c d, OnPerimeter perimeters i c → OnPerimeter perimeters j d → c.key = d.key → i = j ∧ c = d
  paired : ∀ i c, OnPerimeter perimeters i c → ∃ j d, OnPerimeter perimeters j d ∧ d.key = neg c.key ∧
    OppositeKinds c.kind d.kind ∧ (¬VerticalKind c.kind → j = i)

end Verif.Spec
