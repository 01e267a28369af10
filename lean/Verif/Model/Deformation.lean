import Verif.Model.FlipPath
import Verif.Model.FlipPoint
import Verif.Model.Equal

/-!
# Composition of deformations

Model of libflatsurf/src/deformation.cc, deformation_relation.cc, trivial_deformation_relation.cc and
composite_deformation_relation.cc, without `operator()(HalfEdge)`. All other classes that derive from `DeformationRelation` are given by their virtual
functions, see `Relations`.
-/

namespace Verif

/-- A computation that can fail with an exception; `none` when it does not terminate. -/
abbrev Comp (α : Type) : Type := ExceptT Err Option α

/-- `throw`. -/
def Comp.throw {α : Type} (e : Err) : Comp α := ExceptT.mk (some (.error e))

/-- The virtual functions of the classes that derive from `DeformationRelation`, impl/deformation_relation.hpp, other than
`TrivialDeformationRelation` and `CompositeDeformationRelation`; and what is used of surfaces, paths and points.

Here, `B` are the relations, `S` are the surfaces and `X` are the objects to which a deformation can be applied, i.e., paths
and points. -/
structure Relations (S X B R : Type) where
  /-- `FlatTriangulation::operator==`. -/
  same : S → S → Bool
  /-- The surface of a point; `none` for paths since their surface is not checked. -/
  surface : X → Option S
  /-- The positive half edges of a surface. -/
  positive : S → List HE
  /-- The path that consists of a half edge. -/
  edge : S → HE → X
  /-- `Path::operator==`. -/
  samePath : X → X → Bool
  domain : B → S
  codomain : B → S
  /-- `operator()`; a path might have no image. -/
  apply : B → X → Comp (Option X)
  /-- `trivial()`. -/
  trivial : B → Comp Bool
  /-- `section()`. -/
  inverse : B → Comp R

/-- The classes that derive from `DeformationRelation`. -/
inductive Rel (S B : Type) where
  | identity (s : S)
  | basic (b : B)
  | composite (lhs rhs : Rel S B)

namespace Rel

variable {S X B : Type} (R : Relations S X B (Rel S B))

/-- `domain`, composite_deformation_relation.cc:32-33 and trivial_deformation_relation.cc:30-32. -/
def domain : Rel S B → S
  | identity s => s
  | basic b => R.domain b
  | composite _ rhs => rhs.domain

/-- `codomain`, composite_deformation_relation.cc:32-33 and trivial_deformation_relation.cc:30-32. -/
def codomain : Rel S B → S
  | identity s => s
  | basic b => R.codomain b
  | composite lhs _ => lhs.codomain

/-- `operator()`, composite_deformation_relation.cc:35-46 and trivial_deformation_relation.cc:34-42. -/
def apply : Rel S B → X → Comp (Option X)
  | identity _, x => pure (some x)
  | basic b, x => R.apply b x
  | composite lhs rhs, x => do
    match ← rhs.apply x with
    | none => pure none
    | some y => lhs.apply y

/-- The loop in `DeformationRelation::trivial`, deformation_relation.cc:33-35. -/
def fixes (r : Rel S B) (dom cod : S) : List HE → Comp Bool
  | [] => pure true
  | e :: l => do
    match ← r.apply R (R.edge dom e) with
    | none => pure false
    | some y => if R.samePath y (R.edge cod e) then fixes r dom cod l else pure false

/-- `DeformationRelation::trivial`, deformation_relation.cc:28-38. -/
def trivialByEdges (r : Rel S B) : Comp Bool :=
  if !R.same (r.domain R) (r.codomain R) then pure false else r.fixes R (r.domain R) (r.codomain R) (R.positive (r.domain R))

/-- `trivial`, composite_deformation_relation.cc:58-66 and trivial_deformation_relation.cc:54-57. -/
def trivial : Rel S B → Comp Bool
  | identity _ => pure true
  | basic b => R.trivial b
  | composite lhs rhs => do
    if ← lhs.trivial then rhs.trivial
    else if ← rhs.trivial then lhs.trivial
    else (composite lhs rhs).trivialByEdges R

/-- `section`, composite_deformation_relation.cc:53-56 and trivial_deformation_relation.cc:49-52. (The order in which the two
sections are computed is not specified in C++.) -/
def inverse : Rel S B → Comp (Rel S B)
  | identity s => pure (identity s)
  | basic b => R.inverse b
  | composite lhs rhs => do
    let r ← rhs.inverse
    let l ← lhs.inverse
    pure (composite r l)

end Rel

/-- `Deformation`, deformation.cc. A deformation consists of its relation. -/
abbrev Deformation (S B : Type) : Type := Rel S B

namespace Deformation

variable {S X B : Type} (R : Relations S X B (Rel S B))

/-- `trivial`, deformation.cc:122-133. A relation that turns out to be trivial is replaced, so this also returns the
deformation after the call. -/
def trivial (d : Deformation S B) : Comp (Bool × Deformation S B) := do
  if ← Rel.trivial R d then
    match d with
    | .identity s => pure (true, .identity s)
    | d => pure (true, .identity (d.domain R))
  else pure (false, d)

/-- `operator*`, deformation.cc:105-115. Also returns the two deformations after the call. -/
def mul (lhs rhs : Deformation S B) : Comp (Deformation S B × Deformation S B × Deformation S B) := do
  if !R.same (rhs.codomain R) (lhs.domain R) then Comp.throw .invalidArgument
  else
    let (t, lhs) ← trivial R lhs
    if t then pure (rhs, lhs, rhs)
    else
      let (t, rhs) ← trivial R rhs
      if t then pure (lhs, lhs, rhs)
      else pure (.composite lhs rhs, lhs, rhs)

/-- `operator()(Path)` and `operator()(Point)`, deformation.cc:94-103. -/
def apply (d : Deformation S B) (x : X) : Comp (Option X) :=
  match R.surface x with
  | none => Rel.apply R d x
  | some s => if R.same s (d.domain R) then Rel.apply R d x else Comp.throw .invalidArgument

/-- `section`, deformation.cc:117-120. -/
def inverse (d : Deformation S B) : Comp (Deformation S B) := Rel.inverse R d

end Deformation

/-! ### Flips and linear maps -/

variable {T : Type} [CommRing T] [LinearOrder T]
variable {K : Type*} [Field K] [LinearOrder K] [IsStrictOrderedRing K]

/-- `FlipDeformationRelation` and `LinearDeformationRelation`. -/
inductive FlatRel (T : Type) where
  | flip (S S' : FlatTri T) (e : HE)
  | linear (S S' : FlatTri T) (a b c d : T)

/-- A path, or a point with its surface. -/
abbrev Obj (T : Type) : Type := List (Conn T) ⊕ FlatTri T × Point T

/-- `Path::operator==`, path.cc:260-263, with saddle_connection.cc:105-111, for paths on the same surface. -/
def connsEq : List (Conn T) → List (Conn T) → Bool
  | [], [] => true
  | s :: p, t :: q => decide (s.vector = t.vector) && decide (s.source = t.source) && connsEq p q
  | _, _ => false

/-- `operator()` of flips and linear maps, flip_deformation_relation.cc and linear_deformation_relation.cc. -/
def FlatRel.apply (A : Option (Approx T K)) (dbg : Bool) (fuel : ℕ) : FlatRel T → Obj T → Comp (Option (Obj T))
  | .flip S S' e, .inl path => ExceptT.mk ((FlatTri.flipPath A dbg fuel S S' e path).map fun p => p.map fun p => some (.inl p))
  | .flip S S' e, .inr (_, p) => ExceptT.mk (some ((S.flipPoint dbg S' e p).map fun p => some (.inr (S', p))))
  | .linear S S' a b c d, .inl path =>
    ExceptT.mk ((FlatTri.linearConns A dbg fuel S S' a b c d path).map fun p => p.map fun p => some (.inl p))
  | .linear S S' _ _ _ _, .inr (_, p) => ExceptT.mk (some ((FlatTri.linearPoint dbg S S' p).map fun p => some (.inr (S', p))))

/-- The relations of flips and linear maps. The division in the coordinates is `div` and the ring of a coordinate is `ring`. -/
def flatRelations {R : Type} [DecidableEq R] (ring : T → R) (div : T → T → Option T) (A : Option (Approx T K)) (dbg : Bool)
    (fuel : ℕ) : Relations (FlatTri T) (Obj T) (FlatRel T) (Rel (FlatTri T) (FlatRel T)) where
  same := FlatTri.beq ring
  surface
    | .inl _ => none
    | .inr (S, _) => some S
  positive S := S.tri.edges
  edge S e := .inl [Conn.ofHalfEdge S e]
  samePath
    | .inl p, .inl q => connsEq p q
    | _, _ => false
  domain
    | .flip S _ _ => S
    | .linear S _ _ _ _ _ => S
  codomain
    | .flip _ S' _ => S'
    | .linear _ S' _ _ _ _ => S'
  apply := FlatRel.apply A dbg fuel
  trivial
    | .flip _ _ _ => pure false
    | .linear S S' a b c d => pure (FlatTri.linearTrivial (FlatTri.beq ring S S') a b c d)
  inverse
    | .flip S S' e => pure (.basic (.flip S' S e))
    | .linear S S' a b c d => ExceptT.mk (some ((FlatTri.linearSection div a b c d).map fun (a, b, c, d) => .basic (.linear S' S a b c d)))

end Verif
