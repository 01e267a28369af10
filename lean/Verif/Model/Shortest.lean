import Verif.Model.FlatTriangulation

/-!
# The shortest edge with respect to a direction

Model of `FlatTriangulation::shortest(direction)` in libflatsurf/src/flat_triangulation.cc.
-/

namespace Verif.FlatTri

variable {T : Type} [CommRing T] [LinearOrder T]

/-- The comparison in `shortest`, flat_triangulation.cc:428-441; `abs` there is the absolute value. -/
def shorterAlong (d a b : Vec T) : Bool :=
  let alen := Vec.dot a d
  let blen := Vec.dot b d
  if alen = 0 then false
  else if blen = 0 then true
  else
    let abs := fun x : T => if x < 0 then -x else x
    decide (abs alen < abs blen)

/-- `shortest(direction)`, flat_triangulation.cc:425-443, where `std::min_element` keeps the first element until it finds one
that is less. If there are no edges, then the end of the list of edges is dereferenced, which is undefined behavior; this is
`none`. -/
def shortestAlong (S : FlatTri T) (d : Vec T) : Option (Vec T) :=
  ((List.range (S.tri.size / 2)).map fun i => S.vec (2 * i)).foldl
    (fun best v => match best with
      | none => some v
      | some w => if shorterAlong d v w then some v else some w) none

end Verif.FlatTri
