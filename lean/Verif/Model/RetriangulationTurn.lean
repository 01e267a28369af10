import Verif.Model.Retriangulation
import Verif.Model.SaddleConnect

/-!
# Directions and segments in retriangulations

Model of `source`, `turn` and `operator()(source, target, vector)` in
libflatsurf/src/generic_retriangulation_deformation_relation.cc.
-/

namespace Verif

variable {T : Type} [CommRing T] [LinearOrder T]
variable {K : Type} [Field K] [LinearOrder K] [IsStrictOrderedRing K] (A : Option (Approx T K))

namespace FlatTri

/-- `direction.ccw(surface.fromHalfEdge(source)) != ccw` in the conditions of the loops in
generic_retriangulation_deformation_relation.cc:342-347. -/
def turnsNot (S : FlatTri T) (direction : Vec T) (ccw : CCW) (e : HE) : Bool :=
  decide (Vec.ccw A direction (S.vec e) ≠ ccw)

/-- The body of the `for` loop in `turn(surface, source, direction, angle)`,
generic_retriangulation_deformation_relation.cc:342-348. -/
def turnOnce (S : FlatTri T) (fuel : ℕ) (direction : Vec T) (source : HE) : Option HE := do
  let source ← walk S.tri.nextAtVertex (S.turnsNot A direction .counterclockwise) fuel source
  let source ← walk S.tri.nextAtVertex (S.turnsNot A direction .clockwise) fuel source
  let source ← walk S.tri.nextAtVertex (S.turnsNot A direction .counterclockwise) fuel source
  return S.tri.previousAtVertex source

/-- `turn(surface, source, direction, angle)`, generic_retriangulation_deformation_relation.cc:339-351. -/
def turnFully (S : FlatTri T) (fuel : ℕ) (direction : Vec T) : ℕ → HE → Option HE
  | 0, source => some source
  | angle + 1, source => do
    let source ← S.turnOnce A fuel direction source
    turnFully S fuel direction angle source

/-- `turn(surface, source, from, to)`, generic_retriangulation_deformation_relation.cc:309-324; `to` is `until_`. -/
def turnFrom (S : FlatTri T) (until_ : Vec T) : ℕ → HE → Vec T → Option HE
  | 0, _, _ => none
  | fuel + 1, source, start =>
    if Vec.ccw A start until_ ≠ .collinear ∨ Vec.orientation A start until_ ≠ .same then
      if Vec.ccw A start until_ = .counterclockwise ∧ Vec.ccw A (S.vec (S.tri.nextAtVertex source)) until_ = .clockwise then
        some source
      else turnFrom S until_ fuel (S.tri.nextAtVertex source) (S.vec (S.tri.nextAtVertex source))
    else some source

end FlatTri

/-- A relation between surfaces as in generic_retriangulation_deformation_relation.hpp. The cache `relations`, i.e., the pairs of saddle
connections that `relation` determines for the vertices of the domain, lines 240-301, is given as a function. It is `none` for vertices
that do not exist in the codomain. -/
structure GenericRetriangulation (T : Type) where
  domain : FlatTri T
  codomain : FlatTri T
  relation : Finset HE → Option (Saddle × Saddle)

namespace GenericRetriangulation

/-- `domain.angle(Vertex::source(domain, source)) == codomain.angle(Vertex::source(codomain, source_))`,
generic_retriangulation_deformation_relation.cc:226. -/
def sameAngle (R : GenericRetriangulation T) (fuel : ℕ) (source source_ : HE) : Option (Except Err Bool) :=
  match R.domain.tri.source source, R.codomain.tri.source source_ with
  | some v, some v_ =>
    match R.domain.angle fuel v, R.codomain.angle fuel v_ with
    | some angle, some angle_ => some (.ok (decide (angle = angle_)))
    | _, _ => none
  | _, _ => some (.error .undefined)

/-- Lines 228-234 of generic_retriangulation_deformation_relation.cc. -/
def turned (R : GenericRetriangulation T) (fuel : ℕ) (baseimage : Saddle) (angle : ℕ) (vector : Vec T) : Option HE := do
  let source_ ← R.codomain.turnFully A fuel (R.codomain.saddleVector baseimage) angle baseimage.source
  R.codomain.turnFrom A vector fuel source_ (R.codomain.saddleVector baseimage)

/-- `source`, generic_retriangulation_deformation_relation.cc:209-238. -/
def source (R : GenericRetriangulation T) (dbg : Bool) (fuel : ℕ) (source : HE) (vector : Vec T) :
    Option (Except Err (Option HE)) :=
  match R.domain.tri.source source with
  | none => some (.error .undefined)
  | some v =>
    match R.relation v with
    | none => some (.ok none)
    | some (basepreimage, baseimage) =>
      match R.domain.saddleAngle A fuel basepreimage source vector with
      | none => none
      | some (.error err) => some (.error err)
      | some (.ok angle) =>
        match (if dbg then R.sameAngle fuel source baseimage.source else some (.ok true)) with
        | none => none
        | some (.error err) => some (.error err)
        | some (.ok false) => some (.error .logicError)
        | some (.ok true) => (R.turned A fuel baseimage angle vector).map fun source_ => .ok (some source_)

/-- The loop in `operator()(source, target, vector)`, generic_retriangulation_deformation_relation.cc:188-205, with the variables
`source_`, `vector_` and `image`. The saddle connections that are added to `image` are returned. The assertion in `push_back`,
path.cc:300-304, is not modelled. -/
def segments (R : GenericRetriangulation T) (dbg : Bool) (upper : Vec T → Bound) (n : ℕ) (vector : Vec T) :
    ℕ → HE → Vec T → Option (Except Err (List Saddle))
  | 0, _, _ => none
  | fuel + 1, source_, vector_ =>
    match R.codomain.sectorFrom A n source_ (R.codomain.vec source_) .counterclockwise vector false with
    | none => none
    | some (.error err) => some (.error err)
    | some (.ok sector) =>
      match Saddle.inSector A dbg upper n R.codomain sector vector with
      | none => none
      | some (.error err) => some (.error err)
      | some (.ok search) =>
        let vector_ := vector_ + R.codomain.saddleVector search
        if vector_ = vector then some (.ok [search])
        else if dbg ∧ Vec.orientation A (vector - vector_) vector ≠ .same then some (.error .logicError)
        else
          match (if dbg then R.codomain.isMarked n search.target else some (.ok true)) with
          | none => none
          | some (.error err) => some (.error err)
          | some (.ok false) => some (.error .logicError)
          | some (.ok true) =>
            (segments R dbg upper n vector fuel (R.codomain.tri.nextAtVertex search.target) vector_).map
              fun r => r.map fun image => search :: image

/-- `operator()(source, target, vector)`, generic_retriangulation_deformation_relation.cc:173-208. -/
def segment (R : GenericRetriangulation T) (dbg : Bool) (upper : Vec T → Bound) (fuel : ℕ) (source target : HE) (vector : Vec T) :
    Option (Except Err (Option (List Saddle))) :=
  match R.source A dbg fuel source vector with
  | none => none
  | some (.error err) => some (.error err)
  | some (.ok none) => some (.ok none)
  | some (.ok (some source_)) =>
    match R.source A dbg fuel target (-vector) with
    | none => none
    | some (.error err) => some (.error err)
    | some (.ok none) => some (.ok none)
    | some (.ok (some _)) => (segments A R dbg upper fuel vector fuel source_ 0).map fun r => r.map some

end GenericRetriangulation

end Verif
