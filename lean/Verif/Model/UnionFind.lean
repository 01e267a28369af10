import Verif.Model.Basic
import Mathlib.Logic.Function.Basic

/-!
# Union-find (libflatsurf/src/util/union_find.ipp)

Nodes are numbered. A node that has not been used yet is its own parent, like a node that has just been constructed. The
recursion in `top()` is modelled with fuel; running out of fuel (`none`) means that the recursion has not terminated yet.
-/

namespace Verif.UnionFind

/-- The member `parent` of all the nodes. -/
abbrev State := ℕ → ℕ

/-- `UnionFind(representative)`, union_find.ipp:47-50. -/
def init : State := id

/-- `top()` with path compression, union_find.ipp:34-44: the topmost node and the new state. -/
def top : ℕ → State → ℕ → Option (ℕ × State)
  | 0, _, _ => none
  | fuel + 1, s, i =>
    if s i = i then some (i, s)
    else (top fuel s (s i)).map fun r => (r.1, Function.update r.2 i r.1)

/-- `operator==`, union_find.ipp:57-59. -/
def same (fuel : ℕ) (s : State) (i j : ℕ) : Option (Bool × State) := do
  let (a, s) ← top fuel s i
  let (b, s) ← top fuel s j
  return (a == b, s)

/-- `join`, union_find.ipp:61-64. The right hand side of the assignment is evaluated first. The assertion is evaluated
in debug builds, its outcome is part of the result. -/
def join (dbg : Bool) (fuel : ℕ) (s : State) (i j : ℕ) : Option (Bool × State) := do
  let (b, s) ← top fuel s j
  let (a, s) ← top fuel s i
  let s := Function.update s a b
  if dbg then same fuel s i j else return (true, s)

/-- `representative`, union_find.ipp:66-68. The `repr` of a node is the node. -/
def representative (fuel : ℕ) (s : State) (i : ℕ) : Option (ℕ × State) := top fuel s i

/-- What can be done. -/
inductive Op where
  | join (i j : ℕ)
  | same (i j : ℕ)
  | representative (i : ℕ)

/-- The state after an operation; `none` if it does not terminate with the given fuel. A failed assertion is an error. -/
def step (dbg : Bool) (fuel : ℕ) (s : State) : Op → Option (Except Err State)
  | .join i j => (join dbg fuel s i j).map fun r => if r.1 then .ok r.2 else .error .logicError
  | .same i j => (same fuel s i j).map fun r => .ok r.2
  | .representative i => (representative fuel s i).map fun r => .ok r.2

/-- The state after a history of operations. -/
def run (dbg : Bool) (fuel : ℕ) : List Op → State → Option (Except Err State)
  | [], s => some (.ok s)
  | op :: ops, s => match step dbg fuel s op with
    | none => none
    | some (.error e) => some (.error e)
    | some (.ok s) => run dbg fuel ops s

end Verif.UnionFind
