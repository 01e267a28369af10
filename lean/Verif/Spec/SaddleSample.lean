import Verif.Model.SaddleConnections

/-!
# Specification: sampling saddle connections
-/

namespace Verif.Spec

variable {T : Type}

/-- The restriction is not about the length or the direction of saddle connections, other than being a lower bound on the length,
and it admits the long saddle connections in the corner at `e`. -/
def InSource (e : HE) : SaddleConnections.Restriction T → Prop
  | .lowerBound _ => True
  | .source v => e ∈ v
  | .halfEdge e' => e' = e
  | _ => False

end Verif.Spec
