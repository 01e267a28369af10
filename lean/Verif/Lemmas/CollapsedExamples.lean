import Verif.Spec.Collapsed
import Verif.Lemmas.FlatExamples

/-!
# Surfaces that have been collapsed
-/

namespace Verif.Examples

open Verif Spec

/-- The collapsed surface if it can be constructed. -/
def collapsedOf (fuel : ℕ) (S : FlatTri ℤ) (v : Vec ℤ) : Collapsed ℤ :=
  match Collapsed.make (none : Option (Approx ℤ ℚ)) true fuel S v with
  | some (.ok C) => C
  | _ => ⟨S, 0, S.tri, S.vec, fun _ => []⟩

theorem collapsedOf_built {S : FlatTri ℤ} {v : Vec ℤ} {fuel : ℕ}
    (h : (match Collapsed.make (none : Option (Approx ℤ ℚ)) true fuel S v with | some (.ok _) => true | _ => false) = true) :
    BuiltCollapsed (none : Option (Approx ℤ ℚ)) true S v (collapsedOf fuel S v) := by
  refine .make (fuel := fuel) ?_
  unfold collapsedOf
  revert h
  cases Collapsed.make (none : Option (Approx ℤ ℚ)) true fuel S v with
  | none => intro h; cases h
  | some r => cases r with
    | error _ => intro h; cases h
    | ok C => intro _; rfl

/-- A direction in which there are no vertical half edges at first. -/
def steep : Vec ℤ := ⟨1, 2⟩

/-- The L-shaped surface in the direction `steep`. -/
def ellBefore : Collapsed ℤ := collapsedOf 19 flatEll steep

/-- A vertical edge shows up when the half edge 0 is flipped. -/
def ellAfter : Collapsed ℤ := (ellBefore.flip (none : Option (Approx ℤ ℚ)) true 0).1

theorem ellBefore_built : BuiltCollapsed (none : Option (Approx ℤ ℚ)) true flatEll steep ellBefore :=
  collapsedOf_built (fuel := 19) (S := flatEll) (v := steep) (by decide +kernel)

theorem ellAfter_built : BuiltCollapsed (none : Option (Approx ℤ ℚ)) true flatEll steep ellAfter :=
  .flip ellBefore_built (by decide +kernel)

/-- The large edges are unique when the half edge 2 is flipped next. -/
def ellUnique : Collapsed ℤ := (ellAfter.flip (none : Option (Approx ℤ ℚ)) true 2).1

theorem ellUnique_built : BuiltCollapsed (none : Option (Approx ℤ ℚ)) true flatEll steep ellUnique :=
  .flip ellAfter_built (by decide +kernel)

theorem flatEll_closed : Closed true flatEll := ⟨ell_reachable true, flatEll_isFlat, by decide⟩

/-- A torus in the vertical direction; all its faces are collapsed. -/
def torusUp : Collapsed ℤ := collapsedOf 7 flatTorus ⟨0, 1⟩

theorem torusUp_built : BuiltCollapsed (none : Option (Approx ℤ ℚ)) true flatTorus ⟨0, 1⟩ torusUp :=
  collapsedOf_built (fuel := 7) (S := flatTorus) (v := ⟨0, 1⟩) (by decide +kernel)

end Verif.Examples
