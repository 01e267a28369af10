import Verif.Model.Permutation
import Mathlib.GroupTheory.Perm.List

/-!
# What is expected of permutations

Stated without reference to how the constructors work.
-/

namespace Verif

/-- Permutations which can be built with the interface: from cycles, pairs or images, and modified by operations whose
arguments can be built themselves. -/
inductive Perm.Reachable : Perm → Prop
  | ofImages {l p} (h : Perm.ofImages l = .ok p) : Reachable p
  | ofPairs {l p} (h : Perm.ofPairs l = .ok p) : Reachable p
  | ofCycles {cs p} (h : Perm.ofCycles cs = .ok p) : Reachable p
  | mulCycle {p p' c} (hp : Reachable p) (h : p.mulCycle c = .ok p') : Reachable p'
  | cycleMul {p p' c} (hp : Reachable p) (h : Perm.cycleMul c p = .ok p') : Reachable p'
  | mul {p q p'} (hp : Reachable p) (hq : Reachable q) (h : p.mul q = .ok p') : Reachable p'
  | inverse {p p'} (hp : Reachable p) (h : p.inverse = .ok p') : Reachable p'

namespace Spec

/-- The pairs `l` describe a bijection of `{0, …, n - 1}` where `n` is the number of pairs. -/
def DescribesBijection (l : List (ℕ × ℕ)) : Prop :=
  ∃ σ : Equiv.Perm (Fin l.length), ∀ i : Fin l.length, ((i : ℕ), (σ i : ℕ)) ∈ l

/-- The cycles use each of `0, …, n - 1` exactly once where `n` is the total number of entries. -/
def DescribesCycles (cs : List (List ℕ)) : Prop :=
  ∀ i < cs.flatten.length, cs.flatten.count i = 1

/-- `p` is a bijection of `{0, …, size - 1}` whose two lookup tables agree. -/
def IsBijection (p : Perm) : Prop :=
  (∀ i < p.size, p.fwd i < p.size ∧ p.inv i < p.size ∧ p.inv (p.fwd i) = i ∧ p.fwd (p.inv i) = i)

/-- `p` and the bijection `σ` agree: lookup is `σ`, lookup of preimages is `σ⁻¹`. -/
def Represents (p : Perm) (σ : Equiv.Perm ℕ) : Prop :=
  ∀ i < p.size, p.fwd i = σ i ∧ p.inv i = σ⁻¹ i

end Spec

end Verif
