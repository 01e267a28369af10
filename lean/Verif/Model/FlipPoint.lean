import Verif.Model.Point

/-!
# How flips move points

Model of the part of libflatsurf/src/flip_deformation_relation.cc for points.
-/

namespace Verif.FlatTri

variable {T : Type} [CommRing T] [LinearOrder T]

/-- `FlipDeformationRelation::operator()(Point)`, flip_deformation_relation.cc:65-98, from the surface `S` to the surface
`S'`. -/
def flipPoint (dbg : Bool) (S S' : FlatTri T) (flip : HE) (p : Point T) : Except Err (Point T) :=
  if !S.pointIsIn p flip && !S.pointIsIn p (neg flip) then do
    let (a, b, c) ← S.coordinates p p.face
    S'.point dbg p.face a b c
  else do
    let AB := if S.pointIsIn p flip then flip else neg flip
    let (μa, μb, μc) ← S.coordinates p AB
    let BC := S.tri.nextInFace AB
    let CD := S'.tri.nextInFace BC
    let (νd, νc, νa) := S'.crossed ⟨CD, 0, 0, 1⟩
    let ν := νd + νc + νa
    let Q : Point T := ⟨neg CD, μb * νd, ν * μc + μb * νc, ν * μa + μb * νa⟩
    if Q.a < 0 ∨ Q.b < 0 ∨ Q.c < 0 then
      let (a, b, c) := S'.crossed Q
      S'.point dbg CD a b c
    else
      let (a, b, c) := S'.rotated Q (neg CD)
      S'.point dbg (neg CD) a b c

end Verif.FlatTri
