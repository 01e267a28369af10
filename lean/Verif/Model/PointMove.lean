import Verif.Model.SaddlePath
import Verif.Model.Retriangulation
import Verif.Model.Point

/-!
# Moving a point

Model of `operator+=` and of the constructor from a vector in libflatsurf/src/point.cc.
-/

namespace Verif

variable {T : Type} [CommRing T] [LinearOrder T] {K : Type} [Field K] [LinearOrder K] [IsStrictOrderedRing K]

/-- Whether barycentric coordinates are those of a point in the face, point.cc:392 and 436. -/
def inFace (r : T × T × T) : Bool := decide (0 ≤ r.1) && decide (0 ≤ r.2.1) && decide (0 ≤ r.2.2)

namespace SaddleSearch

/-- The loop in `operator+=`, point.cc:426-469. The result is the point or the saddle connection to a vertex that needs to be
crossed. -/
def pointSearch (P : Params T K) (Δ : Vec T) (F : ℕ) : ℕ → Machine T → Option (Except Err (Point T ⊕ Saddle))
  | 0, _ => none
  | fuel + 1, m => (incrementWithIntersections P F m).bind fun
    | .error err => some (.error err)
    | .ok (m, some (chain, cross)) =>
      let face := P.S.tri.nextInFace (neg cross)
      let r := P.S.barycentric face (Δ - P.S.chainVector chain)
      if inFace r then some ((P.S.normalize ⟨face, r.1, r.2.1, r.2.2⟩).map .inl) else pointSearch P Δ F fuel m
    | .ok (m, none) =>
      match dereference P m with
      | .error err => some (.error err)
      | .ok c =>
        let v := P.S.saddleVector c
        match Vec.ccw P.A Δ v with
        | .collinear =>
          if P.dbg ∧ (Δ = v ∨ Vec.orientation P.A Δ (Δ - v) ≠ .same) then some (.error .logicError) else some (.ok (.inr c))
        | ccw =>
          match skipSector P m ccw with
          | .error err => some (.error err)
          | .ok m => pointSearch P Δ F fuel m

end SaddleSearch

namespace FlatTri

/-- `while (!inSector(face, Δ)) face = nextAtVertex(face)`, point.cc:127-128 and 461-462. -/
def turnTo (A : Option (Approx T K)) (S : FlatTri T) (fuel : ℕ) (face : HE) (Δ : Vec T) : Option HE :=
  walk S.tri.nextAtVertex (fun e => !S.inSector A e Δ) fuel face

/-- Changing sides such that `Δ` points into the face if the point is on an edge, point.cc:368-377. -/
def faceInto (A : Option (Approx T K)) (S : FlatTri T) (p : Point T) (Δ : Vec T) : Point T :=
  if p.c ≠ 0 then p
  else if p.b ≠ 0 ∧ Vec.ccw A (S.vec p.face) Δ = .clockwise then ⟨neg p.face, p.b, p.a, p.c⟩
  else p

/-- `operator+=` of the implementation, point.cc:357-470. Here, `div` is `LinearDeformationRelation::truediv`. If the point
is not a vertex but leaves its face, a vertex is inserted, point.cc:407-415; this is not modelled, instead the result is given
by `elsewhere`. -/
def moveImpl (A : Option (Approx T K)) (dbg : Bool) (S : FlatTri T) (div : T → T → Option T)
    (elsewhere : Point T → Vec T → Option (Except Err (Point T))) (F : ℕ) : ℕ → Point T → Vec T → Option (Except Err (Point T))
  | 0, _, _ => none
  | fuel + 1, p, Δ =>
    if dbg ∧ (p.c ≠ 0 ∧ ¬(p.a ≠ 0 ∧ p.b ≠ 0) ∨ p.b ≠ 0 ∧ p.a = 0) then some (.error .logicError)
    else
      let p := S.faceInto A p Δ
      if p.b = 0 ∧ p.c = 0 ∧ ¬(Vec.ccw A (S.vec p.face) Δ ≠ .clockwise ∧
          Vec.ccw A (S.vec (S.tri.nextAtVertex p.face)) Δ ≠ .counterclockwise) then some (.error .invalidArgument)
      else match S.cartesian div p with
        | .error err => some (.error err)
        | .ok xy =>
          let r := S.barycentric p.face (xy + Δ)
          if inFace r then some (S.normalize ⟨p.face, r.1, r.2.1, r.2.2⟩)
          else if p.c ≠ 0 ∨ p.b ≠ 0 then elsewhere p Δ
          else if dbg ∧ S.inSector A p.face Δ = false then some (.error .logicError)
          else
            let st := SaddleConnections.sectorHalfEdge (SaddleConnections.make S) p.face
            let P : SaddleSearch.Params T K := ⟨A, dbg, S, st.searchRadius, st.lowerBound⟩
            (SaddleSearch.start P F st.sectors).bind fun
              | .error err => some (.error err)
              | .ok m => (SaddleSearch.pointSearch P Δ F F m).bind fun
                | .error err => some (.error err)
                | .ok (.inl p) => some (.ok p)
                | .ok (.inr c) => (S.isMarked F c.target).bind fun
                  | .error err => some (.error err)
                  | .ok false => some (.error .invalidArgument)
                  | .ok true =>
                    match S.tri.source c.target with
                    | none => some (.error .undefined)
                    | some V =>
                      match S.pointAt dbg V with
                      | .error err => some (.error err)
                      | .ok q =>
                        let δ := Δ - S.saddleVector c
                        (S.turnTo A F q.face δ).bind fun face =>
                          moveImpl A dbg S div elsewhere F fuel ⟨face, q.a, q.b, q.c⟩ δ

/-- `angle(point)`, flat_triangulation.cc:942-950. -/
def pointAngle (S : FlatTri T) (fuel : ℕ) (p : Point T) : Option ℕ :=
  match S.vertexOf p with
  | none => some 1
  | some V => S.angle fuel V

/-- `operator+=`, point.cc:119-139. -/
def movePoint (A : Option (Approx T K)) (dbg : Bool) (S : FlatTri T) (div : T → T → Option T)
    (elsewhere : Point T → Vec T → Option (Except Err (Point T))) (fuel : ℕ) (p : Point T) (Δ : Vec T) :
    Option (Except Err (Point T)) :=
  (S.pointAngle fuel p).bind fun angle =>
    if angle ≠ 1 then some (.error .invalidArgument)
    else if (S.vertexOf p).isSome then
      (S.turnTo A fuel p.face Δ).bind fun face => moveImpl A dbg S div elsewhere fuel fuel ⟨face, p.a, p.b, p.c⟩ Δ
    else if (edgeOf p).isSome ∧ S.inSector A p.face Δ = false then
      moveImpl A dbg S div elsewhere fuel fuel ⟨neg p.face, p.b, p.a, p.c⟩ Δ
    else moveImpl A dbg S div elsewhere fuel fuel p Δ

/-- The constructor from a half edge and a vector, point.cc:75-78 and 223-225. -/
def pointFrom (A : Option (Approx T K)) (dbg : Bool) (S : FlatTri T) (div : T → T → Option T)
    (elsewhere : Point T → Vec T → Option (Except Err (Point T))) (fuel : ℕ) (face : HE) (xy : Vec T) :
    Option (Except Err (Point T)) :=
  if S.tri.size ≤ face then some (.error (if dbg then .invalidArgument else .undefined))
  else (moveImpl A dbg S div elsewhere fuel fuel ⟨face, 1, 0, 0⟩ xy).map fun r => r.bind S.normalize

end FlatTri

end Verif
