import Verif.Model.Path

/-!
# Deformations that only rename half edges

Model of libflatsurf/src/combinatorial_deformation_relation.cc and of `Deformation::operator()(HalfEdge)`, deformation.cc.
-/

namespace Verif

/-- `std::unordered_map<HalfEdge, HalfEdge>`; the order of the entries is not specified. -/
abbrev HalfEdgeTable : Type := List (HE × HE)

namespace HalfEdgeTable

/-- `find`. -/
def find (m : HalfEdgeTable) (e : HE) : Option HE := (List.find? (fun p => decide (p.1 = e)) m).map Prod.snd

/-- `m[e] = x`. -/
def insert (m : HalfEdgeTable) (e x : HE) : HalfEdgeTable := (e, x) :: List.filter (fun p => decide (p.1 ≠ e)) m

/-- `find(e)->second`; this is undefined when there is no such entry. -/
def get (m : HalfEdgeTable) (e : HE) : Except Err HE :=
  match m.find e with
  | some x => .ok x
  | none => .error .undefined

/-- The entries of a permutation, combinatorial_deformation_relation.cc:73-82. -/
def ofPerm (r : Perm) : HalfEdgeTable := (List.range r.size).foldl (fun m e => insert m e (r.fwd e)) []

/-- The inverse in `section`, combinatorial_deformation_relation.cc:125-128. -/
def inverse (m : HalfEdgeTable) : HalfEdgeTable := List.foldl (fun n p => insert n p.2 p.1) [] m

end HalfEdgeTable

/-- `CombinatorialDeformationRelation`, impl/combinatorial_deformation_relation.hpp:33-60. -/
structure Combinatorial (T : Type) where
  domain : FlatTri T
  codomain : FlatTri T
  mapping : HalfEdgeTable
  relabeling : Bool

namespace Combinatorial

variable {T : Type} [CommRing T] [LinearOrder T]
variable {K : Type*} [Field K] [LinearOrder K] [IsStrictOrderedRing K]

/-- The loop in the constructor, combinatorial_deformation_relation.cc:49-70: the value of `relabeling`, for the positive half edges that
have not been considered yet. -/
def scan (dbg : Bool) (D C : FlatTri T) (m : HalfEdgeTable) : List HE → Except Err Bool
  | [] => .ok true
  | e :: l =>
    if dbg ∧ (m.find e).isSome ≠ (m.find (neg e)).isSome then .error .logicError
    else match m.find e with
      | none => (scan dbg D C m l).map fun _ => false
      | some x =>
        if dbg ∧ m.find (neg e) ≠ some (neg x) then .error .logicError
        else if D.vec e ≠ C.vec x then .ok false
        else scan dbg D C m l

/-- The constructor, combinatorial_deformation_relation.cc:42-71. -/
def make (dbg : Bool) (D C : FlatTri T) (m : HalfEdgeTable) : Except Err (Combinatorial T) := do
  if dbg ∧ 2 * (D.tri.size / 2) ≠ m.length then throw .logicError
  let relabeling ← scan dbg D C m ((List.range (D.tri.size / 2)).map (2 * ·))
  return ⟨D, C, m, relabeling⟩

/-- The chain of the image of a segment, combinatorial_deformation_relation.cc:93-96. The caches of the chain on the left are empty as
long as it has not been converted to a vector. -/
def chain (m : HalfEdgeTable) (c : ℕ → ℤ) : List ℕ → (ℕ → ℤ) → Except Err (ℕ → ℤ)
  | [], r => .ok r
  | i :: l, r =>
    if c i = 0 then chain m c l r
    else do
      let x ← m.get (2 * i)
      chain m c l fun j => r j + c i * Chain.bump (fun _ => 0) x j

/-- The body of the loop in `operator()(Path)`, combinatorial_deformation_relation.cc:92-99. -/
def segment (dbg : Bool) (R : Combinatorial T) (s : Saddle) : Except Err Saddle := do
  let c ← chain R.mapping s.chain (List.range (R.domain.tri.size / 2)) fun _ => 0
  let source ← R.mapping.get s.source
  let target ← R.mapping.get s.target
  Saddle.make dbg R.codomain.tri.size source target c

/-- The loop in `operator()(Path)`, combinatorial_deformation_relation.cc:92-99. -/
def segments (dbg : Bool) (R : Combinatorial T) : List Saddle → Except Err (List Saddle)
  | [] => .ok []
  | s :: l => do
    let s ← segment dbg R s
    let l ← segments dbg R l
    return s :: l

/-- `operator()(Path)`, combinatorial_deformation_relation.cc:85-102. -/
def path (dbg : Bool) (R : Combinatorial T) (p : List Saddle) : Except Err (List Saddle) := do
  if !R.relabeling then throw .logicError
  R.codomain.makePath dbg (← R.segments dbg p)

/-- `operator()(Point)`, combinatorial_deformation_relation.cc:104-114. -/
def point (dbg : Bool) (R : Combinatorial T) (p : Point T) : Except Err (Point T) := do
  if !R.relabeling then throw .logicError
  let image ← R.mapping.get p.face
  let (a, b, c) ← R.domain.coordinates p p.face
  R.codomain.point dbg image a b c

/-- `section`, combinatorial_deformation_relation.cc:121-129. -/
def inverse (dbg : Bool) (R : Combinatorial T) : Except Err (Combinatorial T) := make dbg R.codomain R.domain R.mapping.inverse

/-- The loop in `trivial`, combinatorial_deformation_relation.cc:136-138. -/
def fixes (m : HalfEdgeTable) : List HE → Except Err Bool
  | [] => .ok true
  | e :: l => do
    let x ← m.get e
    if x ≠ e then return false
    fixes m l

/-- `trivial`, combinatorial_deformation_relation.cc:131-141. -/
def trivial (R : Combinatorial T) : Except Err Bool :=
  if !R.relabeling then .ok false else fixes R.mapping ((List.range (R.domain.tri.size / 2)).map (2 * ·))

/-- `relabel`, flat_triangulation.cc:663-671. -/
def ofPerm (A : Option (Approx T K)) (dbg : Bool) (S : FlatTri T) (r : Perm) : Except Err (Combinatorial T) := do
  let S' ← S.relabel A dbg r
  make dbg S S' (.ofPerm r)

end Combinatorial

namespace FlatTri

variable {T : Type} [CommRing T] [LinearOrder T]

/-- `Deformation::operator()(HalfEdge)`, deformation.cc:83-92, where `image` is the image of the saddle connection of the half edge and
`S` is the codomain. -/
def imageHalfEdge (S : FlatTri T) (image : Option (List Saddle)) : Except Err (Option HE) :=
  match image with
  | none => .ok none
  | some [s] => if S.saddleEq s (Saddle.ofHalfEdge s.source) then .ok (some s.source) else .error .invalidArgument
  | some _ => .error .invalidArgument

end FlatTri

end Verif
