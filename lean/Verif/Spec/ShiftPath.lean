import Verif.Spec.SaddlePath

/-!
# Specification: running along half edges instead of a saddle connection
-/

namespace Verif.Spec

open Vec

variable {T : Type} [CommRing T] [LinearOrder T]

/-- Two half edges start at the same vertex. -/
def SameVertex (S : FlatTri T) (a b : HE) : Prop := ∃ n, S.tri.nextAtVertex^[n] a = b

/-- One gets from the vertex where `a` starts along these half edges to the vertex where `b` starts. -/
inductive Leads (S : FlatTri T) : HE → List HE → HE → Prop
  | done {a b : HE} : SameVertex S a b → Leads S a [] b
  | step {a b h : HE} {l : List HE} : SameVertex S a h → Leads S (neg h) l b → Leads S a (h :: l) b

/-- The triangles that a saddle connection runs through, given by a half edge and where it starts when the saddle connection starts at the
origin in the corner of `e`; it crosses the half edges `crossed`. -/
def Triangle (S : FlatTri T) (e : HE) (crossed : List (HE × Vec T)) (h : HE) (p : Vec T) : Prop :=
  (h = e ∧ p = 0) ∨ ∃ x ∈ crossed, h = neg x.1 ∧ p = x.2 + S.vec x.1

/-- A side of one of the triangles, starting at `p`. -/
def TriangleSide (S : FlatTri T) (e : HE) (crossed : List (HE × Vec T)) (h : HE) (p : Vec T) : Prop :=
  ∃ g q, Triangle S e crossed g q ∧ (h = g ∧ p = q ∨ h = S.tri.nextInFace g ∧ p = q + S.vec g ∨
    h = S.tri.nextInFace (S.tri.nextInFace g) ∧ p = q + S.vec g + S.vec (S.tri.nextInFace g))

/-- The half edges run from `p` to `q`, along (or against the direction of) sides of the triangles. -/
inductive FollowsEdge (S : FlatTri T) (e : HE) (crossed : List (HE × Vec T)) : Vec T → List HE → Vec T → Prop
  | done {p : Vec T} : FollowsEdge S e crossed p [] p
  | step {h : HE} {l : List HE} {p q : Vec T} : TriangleSide S e crossed h p ∨ TriangleSide S e crossed (neg h) (p + S.vec h) →
      FollowsEdge S e crossed (p + S.vec h) l q → FollowsEdge S e crossed p (h :: l) q

/-- The half edges form a path that is homotopic to the saddle connection with fixed ends: Both run from one end to the other in the
triangles that the saddle connection runs through, when these are developed into the plane. (The triangles along a saddle connection are
glued to a disk.) -/
def Homotopic (S : FlatTri T) (c : Saddle) (l : List HE) : Prop :=
  Leads S c.source l c.target ∧ ∃ crossed, Crossings S c.source (S.saddleVector c) crossed ∧ FollowsEdge S c.source crossed 0 l (S.saddleVector c)

end Verif.Spec
