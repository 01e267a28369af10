import Verif.Model.Path

/-!
# Linear deformations

Model of libflatsurf/src/linear_deformation_relation.cc. The domain `S`, the codomain `S'` and the entries `a`, `b`, `c`, `d`
of the matrix are explicit arguments.
-/

namespace Verif

namespace FlatTri

variable {T : Type} [CommRing T] [LinearOrder T]
variable {K : Type*} [Field K] [LinearOrder K] [IsStrictOrderedRing K]

/-- `operator()(Point)`, linear_deformation_relation.cc:101-105. -/
def linearPoint (dbg : Bool) (S S' : FlatTri T) (p : Point T) : Except Err (Point T) := do
  let (a, b, c) ← S.coordinates p p.face
  S'.point dbg p.face a b c

/-- The entries stored by `section`, linear_deformation_relation.cc:57-69. Here, `div` is `truediv`, lines 124-136. Of the
entries, only the sign of the determinant matters when mapping points and paths. -/
def linearSection (div : T → T → Option T) (a b c d : T) : Except Err (T × T × T × T) :=
  let det := a * d - b * c
  match div a det, div b det, div c det, div d det with
  | some a, some b, some c, some d => .ok (a, b, c, d)
  | _, _, _, _ => .error .logicError

/-- The body of the loop in `operator()(Path)`, linear_deformation_relation.cc:77-96. The chain has the same coefficients in
the codomain. -/
def linearSegment (A : Option (Approx T K)) (dbg : Bool) (fuel : ℕ) (S S' : FlatTri T) (a b c d : T) (s : Saddle) :
    Option (Except Err Saddle) :=
  let positive : Bool := decide (a * d - b * c > 0)
  let chain : ℕ → ℤ := fun i => if i < S.tri.size / 2 then s.chain i else 0
  let source := if positive then s.source else S.tri.nextAtVertex s.source
  let target := if positive then s.target else S.tri.nextAtVertex s.target
  (S'.sector A fuel source .counterclockwise (S'.chainVector chain) false).bind fun source =>
    (S'.sector A fuel target .counterclockwise (-S'.chainVector chain) false).map fun target => do
      Saddle.make dbg S'.tri.size (← source) (← target) chain

/-- `push_back`, path.cc:301-304, where the assertion is for debug builds. -/
def pathPush (dbg : Bool) (S : FlatTri T) (p : List Saddle) (s : Saddle) : Except Err (List Saddle) :=
  match p.getLast? with
  | some l => if dbg && !S.connected l s then .error .logicError else .ok (p ++ [s])
  | none => .ok (p ++ [s])

/-- The loop in `operator()(Path)`, linear_deformation_relation.cc:71-99. -/
def linearPathLoop (A : Option (Approx T K)) (dbg : Bool) (fuel : ℕ) (S S' : FlatTri T) (a b c d : T) :
    List Saddle → List Saddle → Option (Except Err (List Saddle))
  | image, [] => some (.ok image)
  | image, s :: path =>
    match linearSegment A dbg fuel S S' a b c d s with
    | none => none
    | some (.error e) => some (.error e)
    | some (.ok s) => match pathPush dbg S' image s with
      | .error e => some (.error e)
      | .ok image => linearPathLoop A dbg fuel S S' a b c d image path

/-- `operator()(Path)`, linear_deformation_relation.cc:71-99. -/
def linearPath (A : Option (Approx T K)) (dbg : Bool) (fuel : ℕ) (S S' : FlatTri T) (a b c d : T) (path : List Saddle) :
    Option (Except Err (List Saddle)) := linearPathLoop A dbg fuel S S' a b c d [] path

/-- `trivial`, linear_deformation_relation.cc:107-113, with the result of `==` for domain and codomain. -/
def linearTrivial (same : Bool) (a b c d : T) : Bool :=
  if a = 1 ∧ b = 0 ∧ c = 0 ∧ d = 1 then same else false

end FlatTri

end Verif
