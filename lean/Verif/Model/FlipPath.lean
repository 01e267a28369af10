import Verif.Model.LinearDeformation

/-!
# Paths and flips

Model of how a flip and a linear map act on paths, for saddle connections whose chain might belong to another surface than
the saddle connection itself.
-/

namespace Verif

/-- A saddle connection, impl/saddle_connection.impl.hpp, with the surface to which its chain belongs. This is the surface of
the saddle connection when it has been created from a half edge or by the search for saddle connections. -/
structure Conn (T : Type) extends Saddle where
  base : FlatTri T

namespace Conn

variable {T : Type} [CommRing T] [LinearOrder T]

/-- `vector`, saddle_connection.cc:294-297: this is the vector of the chain, so it is computed on the surface of the chain. -/
def vector (s : Conn T) : Vec T := s.base.chainVector s.chain

/-- The saddle connection of a half edge, saddle_connection.cc:87-90. -/
def ofHalfEdge (S : FlatTri T) (e : HE) : Conn T := { Saddle.ofHalfEdge e with base := S }

/-- The constructor from a chain, saddle_connection.cc:92-102 and 326-337: the chain is copied as it is. -/
def make (dbg : Bool) (source target : HE) (chain : ℕ → ℤ) (base : FlatTri T) : Except Err (Conn T) :=
  (Saddle.make dbg base.tri.size source target chain).map fun s => { s with base := base }

end Conn

namespace FlatTri

variable {T : Type} [CommRing T] [LinearOrder T]
variable {K : Type*} [Field K] [LinearOrder K] [IsStrictOrderedRing K]

/-- The half edge from which the search for the sector starts, flip_deformation_relation.cc:46-52, on the domain `S`. -/
def flipStart (S : FlatTri T) (flip e : HE) : HE := if e = flip ∨ e = neg flip then S.tri.previousAtVertex e else e

/-- The body of the loop in `operator()(Path)`, flip_deformation_relation.cc:45-58. The segment is implicitly converted to
its vector when searching for the sectors, and to its chain when creating the segment in the codomain `S'`. -/
def flipSegment (A : Option (Approx T K)) (dbg : Bool) (fuel : ℕ) (S S' : FlatTri T) (flip : HE) (s : Conn T) :
    Option (Except Err (Conn T)) :=
  (S'.sector A fuel (S.flipStart flip s.source) .counterclockwise s.vector false).bind fun source =>
    (S'.sector A fuel (S.flipStart flip s.target) .counterclockwise (-s.vector) false).map fun target => do
      Conn.make dbg (← source) (← target) s.chain s.base

/-- `push_back`, path.cc:301-304, where the assertion is for debug builds. -/
def connPush (dbg : Bool) (S : FlatTri T) (p : List (Conn T)) (s : Conn T) : Except Err (List (Conn T)) :=
  match p.getLast? with
  | some l => if dbg && !S.connected l.toSaddle s.toSaddle then .error .logicError else .ok (p ++ [s])
  | none => .ok (p ++ [s])

/-- The loop over the segments of a path in flip_deformation_relation.cc:43-60 and linear_deformation_relation.cc:76-96. -/
def connLoop (dbg : Bool) (S' : FlatTri T) (segment : Conn T → Option (Except Err (Conn T))) :
    List (Conn T) → List (Conn T) → Option (Except Err (List (Conn T)))
  | image, [] => some (.ok image)
  | image, s :: path =>
    match segment s with
    | none => none
    | some (.error e) => some (.error e)
    | some (.ok s) => match connPush dbg S' image s with
      | .error e => some (.error e)
      | .ok image => connLoop dbg S' segment image path

/-- `FlipDeformationRelation::operator()(Path)`, flip_deformation_relation.cc:42-61. -/
def flipPath (A : Option (Approx T K)) (dbg : Bool) (fuel : ℕ) (S S' : FlatTri T) (flip : HE) (path : List (Conn T)) :
    Option (Except Err (List (Conn T))) := connLoop dbg S' (flipSegment A dbg fuel S S' flip) [] path

/-- `LinearDeformationRelation::operator()(Path)`, linear_deformation_relation.cc:71-99. The coefficients of the chain are
used with the half edges of the codomain, whatever the surface of the chain is. -/
def linearConns (A : Option (Approx T K)) (dbg : Bool) (fuel : ℕ) (S S' : FlatTri T) (a b c d : T) (path : List (Conn T)) :
    Option (Except Err (List (Conn T))) :=
  connLoop dbg S' (fun s => (linearSegment A dbg fuel S S' a b c d s.toSaddle).map fun s => s.map fun s => ⟨s, S'⟩) [] path

end FlatTri

end Verif
