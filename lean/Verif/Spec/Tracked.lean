import Verif.Model.HalfEdge

namespace Verif.Spec

/-- The renaming of half edges that exchanges `a` with `b` and `-a` with `-b`. -/
def rename (a b e : HE) : HE :=
  if e = a then b
  else if e = b then a
  else if e = neg a then neg b
  else if e = neg b then neg a
  else e

end Verif.Spec
