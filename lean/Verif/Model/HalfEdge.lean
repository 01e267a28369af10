import Verif.Model.Basic
import Mathlib.Data.Int.Order.Basic

/-!
# Half edges and edges

Model of `libflatsurf/src/half_edge.cc` and `libflatsurf/src/edge.cc`.

A `HalfEdge` is stored as an index `idx : size_t` (half_edge.cc:30-32, 65-68). We model it by that natural number and
write `HE` for the type. The default constructed half edge (`idx = SIZE_MAX`, half_edge.cc:43-44) is not a half edge of
any surface; where it can occur (uninitialized cells of a vector) it is modelled by `none`.
-/

namespace Verif

/-- A half edge is given by its index. -/
scoped notation "HE" => ℕ

/-- `HalfEdge(int id)`, half_edge.cc:34-37.
`id = 0` is only excluded by an assertion; `2 * (id - 1)` and `-2 * id - 1` are computed in (32 bit) `int`, so they
overflow when `|id| > 2^30`. Both are `undefined` here. -/
def heOfId (id : ℤ) : Except Err HE :=
  if id = 0 then .error .undefined
  else if 0 < id then
    if 2 * (id - 1) < 2 ^ 31 then .ok (2 * (id - 1)).toNat else .error .undefined
  else
    if -2 * id - 1 < 2 ^ 31 then .ok (-2 * id - 1).toNat else .error .undefined

/-- `HalfEdge::id()`, half_edge.cc:46-49. -/
def heId (e : HE) : ℤ := (if e % 2 = 1 then -1 else 1) * ((e / 2 + 1 : ℕ) : ℤ)

/-- `HalfEdge::operator-()`, half_edge.cc:51-53. -/
def neg (e : HE) : HE := e ^^^ 1

/-- An edge stores one of its half edges, edge.hpp and edge.cc:29-36. -/
structure Edge where
  pos : HE
  deriving DecidableEq, Repr

namespace Edge

/-- `Edge(HalfEdge e)`, edge.cc:35-36. -/
def ofHalfEdge (e : HE) : Edge := ⟨if e < neg e then e else neg e⟩

/-- `Edge(int id)`, edge.cc:32-33. -/
def ofId (id : ℤ) : Except Err Edge := do
  let e ← heOfId id
  return ofHalfEdge e

/-- `Edge::fromIndex(index)`, edge.cc:38-40. Where `static_cast<int>(index) + 1` overflows, `heOfId` is undefined
already. -/
def fromIndex (index : ℕ) : Except Err Edge := ofId ((index : ℤ) + 1)

/-- `Edge::positive()`, edge.cc:42. -/
def positive (e : Edge) : HE := e.pos

/-- `Edge::negative()`, edge.cc:44. -/
def negative (e : Edge) : HE := neg e.pos

/-- `Edge::index()`, edge.cc:46-49. -/
def index (e : Edge) : ℕ := e.pos / 2

end Edge

end Verif
