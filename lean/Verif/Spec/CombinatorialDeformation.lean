import Verif.Model.CombinatorialDeformation
import Verif.Spec.LinearDeformation
import Verif.Spec.Path

/-!
# Specification of deformations that only rename half edges
-/

namespace Verif.Spec

variable {T : Type} [CommRing T] [LinearOrder T]

/-- The surface `S'` is the surface `S` after renaming the half edges with `σ`. -/
structure Renaming (S S' : FlatTri T) (σ : HE → HE) : Prop where
  bijective : (S.tri.halfEdges.map σ).Perm S'.tri.halfEdges
  opposite : ∀ e ∈ S.tri.halfEdges, σ (neg e) = neg (σ e)
  faces : ∀ e ∈ S.tri.halfEdges, S'.tri.nextInFace (σ e) = σ (S.tri.nextInFace e)
  vectors : ∀ e ∈ S.tri.halfEdges, S'.vec (σ e) = S.vec e

/-- The entries of a table are the half edges of a surface and their images. -/
def TableOf (S : FlatTri T) (σ : HE → HE) (m : HalfEdgeTable) : Prop := List.Perm m (S.tri.halfEdges.map fun e => (e, σ e))

/-- The description of a position after half edges have been renamed. -/
def renamedPoint (σ : HE → HE) (p : Point T) : Point T := ⟨σ p.face, p.a, p.b, p.c⟩

/-- How often a half edge shows up in a chain, counting its opposite with a minus sign. -/
def occurrences (c : ℕ → ℤ) (e : HE) : ℤ := if e % 2 = 0 then c (e / 2) else -c (e / 2)

/-- The segment `s'` is the segment `s` after half edges have been renamed: it leaves from the renamed corner, arrives at the renamed
corner and each edge shows up in its chain as often as before. -/
structure RenamedSegment (S S' : FlatTri T) (σ : HE → HE) (s s' : Saddle) : Prop where
  source : s'.source = σ s.source
  target : s'.target = σ s.target
  chain : ∀ e ∈ S.tri.halfEdges, occurrences s'.chain (σ e) = occurrences s.chain e
  vector : S'.saddleVector s' = S.saddleVector s

/-- A deformation from `S` to `S'` constructed from a table of the images of all the half edges. -/
def Deforms (dbg : Bool) (S S' : FlatTri T) (σ : HE → HE) (R : Combinatorial T) : Prop :=
  (∀ e ∈ S.tri.halfEdges, σ (neg e) = neg (σ e)) ∧ ∃ m, TableOf S σ m ∧ Combinatorial.make dbg S S' m = .ok R

end Verif.Spec
