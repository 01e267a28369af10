import Verif.Model.HalfEdgeIntersection
import Verif.Spec.Vector

/-!
# Where saddle connections cross half edges
-/

namespace Verif.Spec

/-- The half line from the source of the saddle connection, which is at `base` relative to the start of the half edge,
meets the half edge in its interior. The parameter `t` says at which ratio of the half edge. -/
def CrossesAt {T : Type} [CommRing T] (f : T →+* ℝ) (i : HalfEdgeIntersection T) (t : ℝ) : Prop :=
  0 < t ∧ t < 1 ∧ ∃ s : ℝ, 0 < s ∧
    i.base.map f + s • i.direction.map f = t • (i.surface.vec i.halfEdge).map f

/-- The saddle connection crosses the half edge from its left to its right. This is how saddle connections report the
half edges that they cross: the search for saddle connections crosses over the half edges of the face that it comes
from, see saddle_connections_iterator.cc:692-697. -/
def FromLeft {T : Type} [CommRing T] [LinearOrder T] (i : HalfEdgeIntersection T) : Prop :=
  Vec.cross (i.surface.vec i.halfEdge) i.direction < 0

end Verif.Spec
