import Verif.Model.ByLength

/-!
# What sorting by length means
-/

namespace Verif.ByLength

variable {T : Type} [CommRing T] [LinearOrder T] {K : Type} [Field K] [LinearOrder K] [IsStrictOrderedRing K]

/-- What the C++ standard demands of `std::sort(…, CompareLength)`: it permutes the saddle connections so that no saddle
connection compares as shorter than one that comes before it. The order of saddle connections of the same length is not
determined. -/
def SortsByLength (S : FlatTri T) (A : Option (Approx T K)) (sort : List Saddle → List Saddle) : Prop :=
  ∀ l, (sort l).Perm l ∧ (sort l).Pairwise fun c d => Vec.compareLength A (S.saddleVector d) (S.saddleVector c) = false

end Verif.ByLength
