import Verif.Model.HalfEdge

/-!
# Images of vertices in a retriangulation

Model of `operator()(Point)` for vertices in libflatsurf/src/generic_retriangulation_deformation_relation.cc:109-158. The assertion that
vertices that do not survive have a total angle of 2π is not modelled.
-/

namespace Verif.VertexWalk

open Verif

/-- What the walk uses of the surfaces: the half edges that start at each vertex, the vertex at the end of a half edge, and moving a point
of the codomain by the negative of the vector of a half edge. For a half edge to a vertex, `survives` is the result of lines 132-135, i.e., the
image of the start of the half edge if its end survived; without half edge, it is the result of lines 127-130. -/
structure Setup (P : Type) where
  start : ℕ
  outgoing : ℕ → List HE
  target : HE → ℕ
  survives : Option HE → Option P
  back : P → HE → P

variable {P : Type}

/-- The vertex `B`, line 119. -/
def Setup.vertex (X : Setup P) : Option HE → ℕ
  | none => X.start
  | some e => X.target e

/-- Lines 144-145. -/
def Setup.move (X : Setup P) (step : Option HE) (image : P) : P :=
  match step with
  | none => image
  | some e => X.back image e

/-- The loop over the half edges that start at a vertex, lines 141-148. The list are the vertices in `seen`. -/
def Setup.tryAll (X : Setup P) (step : Option HE) (walk : List ℕ → HE → Option (Option P × List ℕ)) :
    List HE → List ℕ → Option (Option P × List ℕ)
  | [], seen => some (none, seen)
  | e :: rest, seen => match walk seen e with
    | none => none
    | some (some image, seen) => some (some (X.move step image), seen)
    | some (none, seen) => X.tryAll step walk rest seen

/-- `walk`, lines 118-151. -/
def Setup.walk (X : Setup P) : ℕ → List ℕ → Option HE → Option (Option P × List ℕ)
  | 0, _, _ => none
  | fuel + 1, seen, step =>
    if X.vertex step ∈ seen then some (none, seen)
    else match X.survives step with
      | some image => some (some image, X.vertex step :: seen)
      | none => X.tryAll step (fun seen e => X.walk fuel seen (some e)) (X.outgoing (X.vertex step)) (X.vertex step :: seen)

end Verif.VertexWalk
