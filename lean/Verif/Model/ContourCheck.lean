import Verif.Model.Vector
import Verif.Model.HalfEdge

/-!
# The consistency checks for contour decompositions

Model of libflatsurf/src/contour_decomposition.cc:69-210. The connections are given by a number such that `neg` is the connection
with the opposite orientation. That the paths are closed is not modelled.
-/

namespace Verif.ContourCheck

open Verif Vec

/-- All connections show up once with both signs, contour_decomposition.cc:79-89. -/
def signs (decomposition : List (List HE)) : Bool :=
  decomposition.flatten.all fun c => decide (decomposition.flatten.count (neg c) = 1)

/-- `CLASSIFICATION`, contour_decomposition.cc:96-99. -/
inductive Side
  | top
  | bottom
  | left
  | right
  deriving DecidableEq

/-- `classify`, contour_decomposition.cc:101-117. -/
def classify {T : Type} [CommRing T] [LinearOrder T] (vertical v : Vec T) : Except Err Side :=
  match ccwExact vertical v with
  | .collinear => match orientationExact vertical v with
    | .same => .ok .right
    | .opposite => .ok .left
    | .orthogonal => .error .undefined
  | .clockwise => .ok .bottom
  | .counterclockwise => .ok .top

/-- `angle` in multiples of π/2, contour_decomposition.cc:119-171. -/
def angle : Side → Side → ℕ
  | .top, .top => 2
  | .top, .bottom => 0
  | .top, .left => 1
  | .top, .right => 3
  | .bottom, .top => 0
  | .bottom, .bottom => 2
  | .bottom, .left => 3
  | .bottom, .right => 1
  | .left, .top => 3
  | .left, .bottom => 1
  | .left, .left => 2
  | .left, .right => 4
  | .right, .top => 1
  | .right, .bottom => 3
  | .right, .left => 4
  | .right, .right => 2

/-- The angles at the sources of the connections of a component other than its first connection, and then at the source of `first`;
the loop contour_decomposition.cc:173-184. A connection is given by its source and its side. The iterators are cyclic. -/
def anglesFrom (first : ℕ × Side) : List (ℕ × Side) → List (ℕ × ℕ)
  | [] => []
  | [x] => [(first.1, angle x.2 first.2)]
  | x :: y :: rest => (y.1, angle x.2 y.2) :: anglesFrom first (y :: rest)

/-- The angles of a component. -/
def angles : List (ℕ × Side) → List (ℕ × ℕ)
  | [] => []
  | x :: rest => anglesFrom x (x :: rest)

/-- `totalAngle`, contour_decomposition.cc:94-184. -/
def totalAngle (decomposition : List (List (ℕ × Side))) (vertex : ℕ) : ℕ :=
  (((decomposition.map angles).flatten.filter fun a => decide (a.1 = vertex)).map (·.2)).sum

/-- The checks of the total angles, contour_decomposition.cc:186-195. -/
def anglesOk (vertices : List ℕ) (surfaceAngle : ℕ → ℕ) (decomposition : List (List (ℕ × Side))) : Bool :=
  vertices.all fun v => decide (totalAngle decomposition v ≠ 0) && decide (totalAngle decomposition v = 4 * surfaceAngle v)

end Verif.ContourCheck
