import Verif.Model.Path
import Verif.Spec.Vector

/-!
# Specification of paths
-/

namespace Verif

/-- The shoelace formula: twice the signed area of the polygon with the given sides and first vertex. -/
def Vec.shoelace {T : Type} [CommRing T] (origin : Vec T) : List (Vec T) → T
  | [] => 0
  | v :: l => cross origin (origin + v) + shoelace (origin + v) l

namespace Spec

variable {T : Type} [CommRing T] [LinearOrder T]

/-- Each segment starts at the vertex where the previous segment ends. -/
def Connected (S : FlatTri T) (p : List Saddle) : Prop := p.IsChain fun c d => ∃ v w, S.tri.source c.target = some v ∧
  S.tri.source d.source = some w ∧ v.min = w.min

end Spec

end Verif
