import Verif.Model.IndexedSet
import Mathlib.Data.Finset.Basic

/-!
# Programs with finite sets
-/

namespace Verif.IndexedSet

/-- The operations on a list of finite sets. Comparisons do not change anything. -/
def specStep (l : List (Finset ℕ)) : Op → Option (List (Finset ℕ))
  | .new => some (l ++ [∅])
  | .ofItems items => some (l ++ [items.toFinset])
  | .copy i => l[i]?.map fun s => l ++ [s]
  | .insert i t => l[i]?.map fun s => l.set i (Insert.insert t s)
  | .erase i t => l[i]?.map fun s => l.set i (s.erase t)
  | .eq i j => if i < l.length ∧ j < l.length then some l else none
  | .disjoint i j => if i < l.length ∧ j < l.length then some l else none

/-- A history of operations. -/
def specRun : List Op → List (Finset ℕ) → Option (List (Finset ℕ))
  | [], l => some l
  | op :: ops, l => (specStep l op).bind (specRun ops)

end Verif.IndexedSet
