import Verif.Model.Deformation

/-!
# Specification: composition
-/

namespace Verif.Spec

variable {S X B : Type}

/-- First `f`, then `g`; nothing when there is no image under `f`. -/
def andThen (f g : X → Comp (Option X)) (x : X) : Comp (Option X) := do
  match ← f x with
  | none => pure none
  | some y => g y

/-- Two computations have the same outcome, when results are not distinguished that are related by `E`. -/
def SameOutcome (E : X → X → Prop) (u v : Comp (Option X)) : Prop :=
  u = v ∨ ∃ x y, u = pure (some x) ∧ v = pure (some y) ∧ E x y

/-- What is assumed about the classes of deformations that are composed. -/
structure Lawful (R : Relations S X B (Rel S B)) : Prop where
  refl : ∀ s, R.same s s = true
  symm : ∀ s t, R.same s t = true → R.same t s = true
  trans : ∀ s t u, R.same s t = true → R.same t u = true → R.same s u = true
  /-- The image of a path is a path. -/
  path : ∀ b x y, R.surface x = none → R.apply b x = pure (some y) → R.surface y = none
  /-- The image of a point is a point of the codomain. -/
  point : ∀ b x s y, R.surface x = some s → R.apply b x = pure (some y) →
    ∃ t, R.surface y = some t ∧ R.same t (R.codomain b) = true
  /-- The domain and the codomain of a deformation that claims to be trivial are equal. -/
  trivial : ∀ b, R.trivial b = pure true → R.same (R.domain b) (R.codomain b) = true

/-- Deformations that have been created by the library and by composing: the surfaces match. -/
inductive Built (R : Relations S X B (Rel S B)) : Deformation S B → Prop
  | identity (s : S) : Built R (.identity s)
  | basic (b : B) : Built R (.basic b)
  | mul {g f h g' f' : Deformation S B} : Built R g → Built R f → Deformation.mul R g f = pure (h, g', f') → Built R h
  | lhs {g f h g' f' : Deformation S B} : Built R g → Built R f → Deformation.mul R g f = pure (h, g', f') → Built R g'
  | rhs {g f h g' f' : Deformation S B} : Built R g → Built R f → Deformation.mul R g f = pure (h, g', f') → Built R f'
  | trivial {d d' : Deformation S B} {t : Bool} : Built R d → Deformation.trivial R d = pure (t, d') → Built R d'

/-- If the deformation claims to be trivial, then it maps everything on its domain to itself. Objects are not distinguished
when they are related by `E`, and `On s x` if `x` is a path or a point on the surface `s`. -/
def Honest (R : Relations S X B (Rel S B)) (E : X → X → Prop) (On : S → X → Prop) (d : Deformation S B) : Prop :=
  Rel.trivial R d = pure true → ∀ x, On (d.domain R) x → SameOutcome E (Deformation.apply R d x) (pure (some x))

/-- The classes of deformations do not distinguish objects related by `E` and map objects on their domain to objects on their
codomain. -/
structure Respectful (R : Relations S X B (Rel S B)) (E : X → X → Prop) (On : S → X → Prop) : Prop where
  equiv : Equivalence E
  apply : ∀ b x y, E x y → SameOutcome E (R.apply b x) (R.apply b y)
  surface : ∀ x y, E x y → ∀ d : S, (R.surface x).map (R.same · d) = (R.surface y).map (R.same · d)
  image : ∀ b x y, On (R.domain b) x → R.apply b x = pure (some y) → On (R.codomain b) y
  on : ∀ s t x, R.same s t = true → On s x → On t x

end Verif.Spec
