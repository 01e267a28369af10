import Verif.Model.LinearEquivalence
import Verif.Model.FlatTriangulation

/-!
# The search for an isomorphism of surfaces

Model of `FlatTriangulation::isomorphism` in libflatsurf/src/flat_triangulation.cc.
-/

namespace Verif

open Vec

/-- `ISOMORPHISM`, isomorphism.hpp:27-38. -/
inductive IsomorphismKind
  | faces
  | delaunayCells
  deriving DecidableEq

/-- The loops at flat_triangulation.cc:993-995, 1002-1004 and 1006-1008: turn at a vertex until there is a half edge that is not to be
ignored. -/
def skipIgnored (turn : HE → HE) (ignore : HE → Bool) : ℕ → HE → Option HE
  | 0, _ => none
  | fuel + 1, e => if ignore (turn e) then skipIgnored turn ignore fuel (turn e) else some (turn e)

/-- `match`, flat_triangulation.cc:1046-1071, where `fits` are the checks at lines 1050-1057 and `next` and `next'` are `nextInCell` and
`nextInImageCell`. The map is `isomorphism`. -/
def matchHalfEdges (fits : HE → HE → Bool) (next next' : HE → Option HE) : ℕ → HE → HE → (HE → Option HE) → Option (Bool × (HE → Option HE))
  | 0, _, _, _ => none
  | fuel + 1, x, y, m =>
    match m x with
    | some z => some (decide (z = y), m)
    | none =>
      if !fits x y then some (false, m)
      else
        match matchHalfEdges fits next next' fuel (neg x) (neg y) (Function.update m x (some y)) with
        | none => none
        | some (false, m) => some (false, m)
        | some (true, m) =>
          match next x, next' y with
          | some x, some y => matchHalfEdges fits next next' fuel x y m
          | _, _ => none

/-- The first answer in a list of searches, `none` if one of the searches does not end. -/
def firstAnswer {α β : Type} (f : α → Option (Option β)) : List α → Option (Option β)
  | [] => some none
  | x :: l =>
    match f x with
    | none => none
    | some (some y) => some (some y)
    | some none => firstAnswer f l

/-- The deformation that is returned: the linear map given by `matrix` from the surface to `linear`, and the retriangulation of
`linear` that maps the half edge `preimage` to the half edge `image`. -/
structure FoundIsomorphism (T : Type) where
  matrix : Mat T
  linear : FlatTri T
  preimage : HE
  image : HE

namespace FlatTri

variable {T : Type} [CommRing T] [LinearOrder T] [IsStrictOrderedRing T]
variable {K : Type*} [Field K] [LinearOrder K]

/-- `ignore`, `ignoreImage`, flat_triangulation.cc:963-968. -/
def ignored (S : FlatTri T) (kind : IsomorphismKind) (e : HE) : Bool :=
  match kind with
  | .faces => false
  | .delaunayCells => decide (S.delaunayAt (2 * (e / 2)) = .ambiguous)

/-- `nextInCell`, flat_triangulation.cc:991-997. -/
def nextInCell (S : FlatTri T) (kind : IsomorphismKind) (fuel : ℕ) (e : HE) : Option HE :=
  skipIgnored S.tri.previousAtVertex (S.ignored kind) fuel (neg e)

/-- `nextInImageCell`, flat_triangulation.cc:999-1011. Here, `reflect` means that `sgn` is -1. -/
def nextInImageCell (S : FlatTri T) (kind : IsomorphismKind) (reflect : Bool) (fuel : ℕ) (e : HE) : Option HE :=
  skipIgnored (if reflect then S.tri.nextAtVertex else S.tri.previousAtVertex) (S.ignored kind) fuel (neg e)

/-- The checks in `match`, flat_triangulation.cc:1050-1057. -/
def fits (S S' : FlatTri T) (filterHalfEdgeMap : HE → HE → Bool) (M : Mat T) (x y : HE) : Bool :=
  if !filterHalfEdgeMap x y then false
  else if M.a * (S.vec x).x + M.b * (S.vec x).y ≠ (S'.vec y).x then false
  else if M.c * (S.vec x).x + M.d * (S.vec x).y ≠ (S'.vec y).y then false
  else true

/-- The body of the loops over `image` and `sgn`, flat_triangulation.cc:991-1073. -/
def tryImage (div : T → T → Option T) (fuel : ℕ) (S S' : FlatTri T) (kind : IsomorphismKind) (filterMatrix : T → T → T → T → Bool)
    (filterHalfEdgeMap : HE → HE → Bool) (preimage : HE) (candidate : HE × Bool) : Option (Option (Mat T × (HE → Option HE))) :=
  match S.nextInCell kind fuel preimage, S'.nextInImageCell kind candidate.2 fuel candidate.1 with
  | some next, some next' =>
    let v := S.vec preimage
    let w := S.vec next
    let v' := S'.vec candidate.1
    let w' := S'.vec next'
    let denominator := v.x * w.y - v.y * w.x
    match div (v'.x * w.y - v.y * w'.x) denominator, div (v.x * w'.x - v'.x * w.x) denominator,
      div (v'.y * w.y - v.y * w'.y) denominator, div (v.x * w'.y - v'.y * w.x) denominator with
    | some a, some b, some c, some d =>
      if (!candidate.2) != decide (a * d > b * c) then some none
      else if !filterMatrix a b c d then some none
      else
        match matchHalfEdges (S.fits S' filterHalfEdgeMap ⟨a, b, c, d⟩) (S.nextInCell kind fuel) (S'.nextInImageCell kind candidate.2 fuel)
          fuel preimage candidate.1 fun _ => none with
        | none => none
        | some (false, _) => some none
        | some (true, m) => some (some (⟨a, b, c, d⟩, m))
    | _, _, _, _ => some none
  | _, _ => none

/-- `isomorphism`, flat_triangulation.cc:952-1098. The division at lines 1030-1033 is `div`. The surface constructed at lines 1076-1082
is the one of `applyMatrix`; `~` is `~vertices`, flat_triangulation_combinatorics.cc:228-231. The assertions in the constructor of the
retriangulation are left out. -/
def isomorphism (div : T → T → Option T) (A : Option (Approx T K)) (dbg : Bool) (fuel : ℕ) (S S' : FlatTri T) (kind : IsomorphismKind)
    (filterMatrix : T → T → T → T → Bool) (filterHalfEdgeMap : HE → HE → Bool) : Option (Except Err (Option (FoundIsomorphism T))) :=
  if S.tri.hasBoundary != S'.tri.hasBoundary then some (.ok none)
  else if S.tri.halfEdges.length ≠ S'.tri.halfEdges.length then some (.ok none)
  else if S.tri.hasBoundary then some (.error .logicError)
  else if dbg && decide (kind = .delaunayCells) && !(S.tri.edges.all fun e => decide (S.delaunayAt e ≠ .nonDelaunay)) then
    some (.error .logicError)
  else if dbg && decide (kind = .delaunayCells) && !(S'.tri.edges.all fun e => decide (S'.delaunayAt e ≠ .nonDelaunay)) then
    some (.error .logicError)
  else
    match S.tri.halfEdges.find? fun e => !S.ignored kind e with
    | none => some (.error .logicError)
    | some preimage =>
      let candidates := (S'.tri.halfEdges.filter fun e => !S'.ignored kind e).flatMap fun e => [(e, false), (e, true)]
      match firstAnswer (tryImage div fuel S S' kind filterMatrix filterHalfEdgeMap preimage) candidates with
      | none => none
      | some none => some (.ok none)
      | some (some (M, m)) =>
        match S.applyMatrix A dbg M.a M.b M.c M.d with
        | .error e => some (.error e)
        | .ok D =>
          match S.tri.halfEdges.find? fun e => (m e).isSome with
          | none => some (.error (if dbg then .logicError else .undefined))
          | some e => some (.ok (some ⟨M, D, e, (m e).getD 0⟩))

end FlatTri

end Verif
