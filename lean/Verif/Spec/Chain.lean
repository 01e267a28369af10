import Verif.Model.Chain
import Verif.Spec.Vector
import Mathlib.Algebra.BigOperators.Group.Finset.Basic

/-!
# Chains as elements of the free abelian group on the edges
-/

namespace Verif.Chain

variable {T K : Type*} [CommRing T] [LinearOrder T] [Field K] [LinearOrder K] [IsStrictOrderedRing K]

/-- The coefficients of a half edge: one at its edge, minus one if it is the negative half edge. -/
def single (e : ℕ) : ℕ → ℤ := fun k => if k = e / 2 then (if e % 2 = 0 then 1 else -1) else 0

/-- The operations on a list of elements of the free abelian group. -/
def specStep (size : ℕ) (l : List (ℕ → ℤ)) : Op → Option (List (ℕ → ℤ))
  | .zero => some (l ++ [(fun _ => 0 : ℕ → ℤ)])
  | .halfEdge e => if e < 2 * size then some (l ++ [single e]) else none
  | .copy i => l[i]?.map fun c => l ++ [c]
  | .addHalfEdge i e => if e < 2 * size then l[i]?.map fun c => l.set i (fun k => c k + single e k) else none
  | .subHalfEdge i e => if e < 2 * size then l[i]?.map fun c => l.set i (fun k => c k - single e k) else none
  | .add i j => l[i]?.bind fun c => l[j]?.map fun d => l.set i (fun k => c k + d k)
  | .sub i j => l[i]?.bind fun c => l[j]?.map fun d => l.set i (fun k => c k - d k)
  | .neg i => l[i]?.map fun c => l ++ [(fun k => - c k : ℕ → ℤ)]
  | .mul i a => l[i]?.map fun c => l.set i (fun k => a * c k)
  | .toVector i => l[i]?.map fun _ => l
  | .toApproximate i => l[i]?.map fun _ => l

/-- A history of operations. -/
def specRun (size : ℕ) : List Op → List (ℕ → ℤ) → Option (List (ℕ → ℤ))
  | [], l => some l
  | op :: ops, l => (specStep size l op).bind (specRun size ops)

/-- The vector of an element of the free abelian group: the sum over the edges of the coefficient times the vector of the
edge. -/
def vectorOf (S : ChainSurface T K) (c : ℕ → ℤ) : Vec T :=
  ⟨∑ i ∈ Finset.range S.size, (c i : T) * (S.vec (2 * i)).x, ∑ i ∈ Finset.range S.size, (c i : T) * (S.vec (2 * i)).y⟩

/-- The vectors of the half edges of a surface: opposite half edges have opposite vectors, and approximations are correct. -/
structure Valid (S : ChainSurface T K) : Prop where
  neg : ∀ e < 2 * S.size, S.vec (neg e) = -S.vec e
  approx : ∀ e < 2 * S.size, Vec.Encloses S.A (S.approx e) (S.vec e)

/-- Not a multiplication with a number. -/
def Op.NotMul : Op → Prop
  | .mul _ _ => False
  | _ => True

end Verif.Chain
