import Verif.Spec.Tighten

/-!
# Specification: sequences of connections that sum up to a vertical connection
-/

namespace Verif.Spec

/-- The path along a sequence of connections. The ones that are not vertical are reported in the opposite direction. -/
def walked (equivalent : List (Bool × Saddle)) : List Saddle := equivalent.map fun c => if c.1 then c.2 else c.2.neg

end Verif.Spec
