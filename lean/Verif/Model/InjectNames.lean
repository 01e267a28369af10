import Verif.Model.HalfEdge

/-!
# The names of vertical connections that are injected into intervalxt

Part of `make` in libflatsurf/src/flow_decomposition_state.cc. Only the labels that are used to name the connections are modelled, not
what intervalxt does with them. A vertical connection is a number such that `neg` is the connection with the opposite orientation.
-/

namespace Verif.InjectNames

open Verif

/-- `injectedConnections`, flow_decomposition_state.cc:73. The labels of a connection. -/
abbrev Names := List (HE × (ℕ × ℕ))

/-- `injectedConnections.find`. -/
def lookup (names : Names) (v : HE) : Option (ℕ × ℕ) := (names.find? fun p => decide (p.1 = v)).map (·.2)

/-- `Label(-(size + 1))` for a `size_t`, flow_decomposition_state.cc:125. -/
def fresh (size : ℕ) : ℕ := 2 ^ 64 - (size + 1)

/-- The labels in the order that depends on the side, flow_decomposition_state.cc:126. -/
def orient (top : Bool) (source target : ℕ) : ℕ × ℕ := if top then (target, source) else (source, target)

/-- The loop over the connections on the right of a connection, flow_decomposition_state.cc:123-130. -/
def nameRights (dbg top : Bool) : ℕ → List HE → Names → Except Err Names
  | _, [], names => .ok names
  | source, v :: rest, names =>
    if dbg && (lookup names v).isSome then .error .logicError
    else nameRights dbg top (fresh names.length) rest
      ((v, orient top source (fresh names.length)) :: names.filter fun p => decide (p.1 ≠ v))

/-- The connections on the right of a connection with a label at the top or at the bottom. -/
structure Block where
  label : ℕ
  top : Bool
  rights : List HE

/-- The order in which the connections are named, flow_decomposition_state.cc:119-122. -/
def Block.ordered (b : Block) : List HE := if b.top then b.rights.reverse else b.rights

/-- The pass with `right`, flow_decomposition_state.cc:79-131. The loops over components, sides, and labels are one list. -/
def rightPass (dbg : Bool) : List Block → Names → Except Err Names
  | [], names => .ok names
  | b :: rest, names => match nameRights dbg b.top b.label b.ordered names with
    | .error err => .error err
    | .ok names => rightPass dbg rest names

/-- The loop over the connections on the left of a connection, flow_decomposition_state.cc:138-143. (Without assertions, connections
that have not been named get default labels; this is undefined here.) -/
def nameLefts (dbg : Bool) (names : Names) : List HE → Except Err (List (ℕ × ℕ))
  | [] => .ok []
  | v :: rest => match lookup names (neg v) with
    | none => .error (if dbg then .logicError else .undefined)
    | some n => match nameLefts dbg names rest with
      | .error err => .error err
      | .ok ns => .ok ((n.2, n.1) :: ns)

end Verif.InjectNames
