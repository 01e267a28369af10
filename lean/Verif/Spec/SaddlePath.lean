import Verif.Spec.SaddleSearch
import Verif.Spec.HalfEdgeIntersection

/-!
# Specification: the half edges that are crossed by a saddle connection
-/

namespace Verif.Spec

open Vec

variable {T : Type} [CommRing T] [LinearOrder T]

/-- The ray in direction of `v` crosses the half edge `x`, which has been put such that it ends at `q`, and then goes on to
its first vertex, which is at `v`. The list contains all the half edges that are crossed and where they start, see `Hits`. -/
inductive Crosses (S : FlatTri T) (v : Vec T) : HE → Vec T → HE → List (HE × Vec T) → Prop
  | here {x : HE} {q : Vec T} : v = apex S x q →
      Crosses S v x q (S.tri.nextInFace (S.tri.nextInFace (neg x))) [(x, q - S.vec x)]
  | right {x : HE} {q : Vec T} {t : HE} {l : List (HE × Vec T)} : 0 < cross v (apex S x q) →
      Crosses S v (S.tri.nextInFace (neg x)) (apex S x q) t l → Crosses S v x q t ((x, q - S.vec x) :: l)
  | left {x : HE} {q : Vec T} {t : HE} {l : List (HE × Vec T)} : cross v (apex S x q) < 0 →
      Crosses S v (S.tri.nextInFace (S.tri.nextInFace (neg x))) q t l → Crosses S v x q t ((x, q - S.vec x) :: l)

/-- The saddle connection which starts in the corner of `e` with vector `v` crosses these half edges, which start at these
positions when the saddle connection starts at the origin. -/
inductive Crossings (S : FlatTri T) (e : HE) (v : Vec T) : List (HE × Vec T) → Prop
  | halfEdge : v = S.vec e → Crossings S e v []
  | crossing {t : HE} {l : List (HE × Vec T)} : 0 < cross (S.vec e) v → 0 < cross v (S.vec e + S.vec (S.tri.nextInFace e)) →
      Crosses S v (S.tri.nextInFace e) (S.vec e + S.vec (S.tri.nextInFace e)) t l → Crossings S e v l

/-- The saddle connection meets the half edge in its interior, at ratio `s` of the saddle connection. -/
def MeetsAt {T : Type} [CommRing T] (f : T →+* ℝ) (i : HalfEdgeIntersection T) (s : ℝ) : Prop :=
  ∃ t : ℝ, 0 < t ∧ t < 1 ∧ i.base.map f + s • i.direction.map f = t • (i.surface.vec i.halfEdge).map f

end Verif.Spec
