import Verif.Model.LinearEquivalence
import Verif.Model.LinearDeformation
import Verif.Model.CombinatorialDeformation
import Verif.Model.Equal

/-!
# Isomorphisms of surfaces

Model of `Equivalence::isomorphisms` in libflatsurf/src/equivalence.cc, and of the maps to normal forms in
combinatorial_equivalence_walker.cc and linear_equivalence_walker.cc.

When deformations are composed, trivial deformations are dropped and it is checked that domain and codomain are the same, see
Verif/Model/Deformation.lean. Here, a composition is given by its parts. (A part that is trivial does not change half edges, so it is not
important that it is dropped.)
-/

namespace Verif

variable {T : Type} [CommRing T] [LinearOrder T]
variable {K : Type*} [Field K] [LinearOrder K] [IsStrictOrderedRing K]

/-- `clone`, flat_triangulation.cc:477-480. -/
def FlatTri.clone (A : Option (Approx T K)) (dbg : Bool) (S : FlatTri T) : Except Err (FlatTri T) := do
  let C ← S.tri.clone dbg
  ofFunction A dbg C S.vec

namespace Walker

/-- `relabeling`, combinatorial_equivalence_walker.cc:145-170. -/
def table (dbg : Bool) (w : Walker) (T : Tri) : Except Err HalfEdgeTable :=
  T.halfEdges.mapM fun e => match w.relabeling e with
    | some x => .ok (e, x)
    | none => .error (if dbg then .logicError else .undefined)

/-- `normalization`, combinatorial_equivalence_walker.cc:134-137. -/
def normalization (A : Option (Approx T K)) (dbg : Bool) (S : FlatTri T) (w : Walker) : Except Err (FlatTri T) := do
  let r ← Perm.ofPairs (← w.table dbg S.tri)
  let R ← Combinatorial.ofPerm A dbg S r
  R.codomain.clone A dbg

end Walker

/-- A deformation of a surface to its normal form: a linear map is applied to it, if there is one, then half edges are renamed. -/
structure Normalizing (T : Type) where
  matrix : Option (Mat T)
  rename : Combinatorial T

/-- A deformation of a surface to its normal form and from there to another surface: half edges are renamed and then another linear map is
applied. If there is no such second part, then the other surface is itself in normal form. -/
structure Isomorphism (T : Type) where
  first : Normalizing T
  second : Option (Combinatorial T × Option (Mat T))

/-- `operator()(Path)`, linear_deformation_relation.cc:71-99, if there is a linear map. -/
def linearPart (A : Option (Approx T K)) (dbg : Bool) (fuel : ℕ) (S S' : FlatTri T) (M : Option (Mat T)) (p : List Saddle) :
    Option (Except Err (List Saddle)) :=
  match M with
  | none => some (.ok p)
  | some M => FlatTri.linearPath A dbg fuel S S' M.a M.b M.c M.d p

namespace Isomorphism

/-- `operator()(Path)`, composite_deformation_relation.cc:35-41, for an isomorphism from `S` to `S'`. -/
def path (A : Option (Approx T K)) (dbg : Bool) (fuel : ℕ) (S S' : FlatTri T) (i : Isomorphism T) (p : List Saddle) :
    Option (Except Err (List Saddle)) :=
  match linearPart A dbg fuel S i.first.rename.domain i.first.matrix p with
  | none => none
  | some (.error e) => some (.error e)
  | some (.ok p) =>
    match i.first.rename.path dbg p with
    | .error e => some (.error e)
    | .ok p =>
      match i.second with
      | none => some (.ok p)
      | some (R, M) =>
        match R.path dbg p with
        | .error e => some (.error e)
        | .ok p => linearPart A dbg fuel R.codomain S' M p

/-- The surface on which the image of a path lives. -/
def codomain (S' : FlatTri T) (i : Isomorphism T) : FlatTri T := if i.second.isNone then i.first.rename.codomain else S'

/-- `Deformation::operator()(HalfEdge)`, deformation.cc:83-92, for an isomorphism from `S` to `S'`. -/
def halfEdge (A : Option (Approx T K)) (dbg : Bool) (fuel : ℕ) (S S' : FlatTri T) (i : Isomorphism T) (e : HE) :
    Option (Except Err (Option HE)) :=
  (i.path A dbg fuel S S' [Saddle.ofHalfEdge e]).map fun r => r.bind fun p => (i.codomain S').imageHalfEdge (some p)

end Isomorphism

/-- `isomorphisms`, equivalence.cc:84-108, after the codes, the normal forms and the maps to the normal forms have been computed. Here,
`back` is `section` for the maps to the normal form. -/
def isomorphismsOf {Q W : Type} [DecidableEq Q] [DecidableEq W] (ring : T → Q)
    (back : Normalizing T → Except Err (Combinatorial T × Option (Mat T))) (codomain : FlatTri T)
    (x y : W × FlatTri T × List (Normalizing T)) : Except Err (List (Isomorphism T)) :=
  if x.1 ≠ y.1 then .ok []
  else if !x.2.1.beq ring y.2.1 then .error .logicError
  else if y.2.1.beq ring codomain then .ok (x.2.2.map fun d => ⟨d, none⟩)
  else match y.2.2 with
    | [] => .error .undefined
    | d :: _ => (back d).map fun b => x.2.2.map fun d => ⟨d, some b⟩

namespace LinearEquivalence

/-- `normalization`, linear_equivalence_walker.cc:94-102. -/
def normalization (A : Option (Approx T K)) (dbg : Bool) (S : FlatTri T) (w : LinearWalker T) : Except Err (FlatTri T) := do
  let N ← w.2.2.normalization A dbg S
  let N ← N.applyMatrix A dbg w.1.a w.1.b w.1.c w.1.d
  N.clone A dbg

/-- `deformation`, linear_equivalence_walker.cc:83-92. -/
def deformation (A : Option (Approx T K)) (dbg : Bool) (S N : FlatTri T) (w : LinearWalker T) : Except Err (Normalizing T) := do
  let D ← S.applyMatrix A dbg w.1.a w.1.b w.1.c w.1.d
  let R ← Combinatorial.make dbg D N (← w.2.2.table dbg S.tri)
  return ⟨some w.1, R⟩

/-- `code`, linear_equivalence.cc:107-126 with equivalence_walker.hpp:113-123. Without walkers, the behavior is undefined. -/
def code (A : Option (Approx T K)) (dbg : Bool) (quot : T → T → T) (group : LinearGroup) (oriented : Bool) (fuel : ℕ) (S : FlatTri T) :
    Option (Except Err (List (List ℤ × Vec T) × FlatTri T × List (Normalizing T))) :=
  (word dbg quot group oriented S fuel).map fun r => do
    let (code, walkers) ← r
    match walkers with
    | [] => throw (if dbg then .logicError else .undefined)
    | w :: ws =>
      let N ← normalization A dbg S w
      let ds ← (w :: ws).mapM (deformation A dbg S N)
      return (code, N, ds)

/-- `section` of a map to the normal form, composite_deformation_relation.cc:53-56. -/
def back (div : T → T → Option T) (dbg : Bool) (d : Normalizing T) : Except Err (Combinatorial T × Option (Mat T)) := do
  let R ← d.rename.inverse dbg
  match d.matrix with
  | none => return (R, none)
  | some M =>
    let (a, b, c, d) ← FlatTri.linearSection div M.a M.b M.c M.d
    return (R, some ⟨a, b, c, d⟩)

/-- `isomorphisms`, equivalence.cc:84-108, for linear equivalence. The ring of a coordinate is `ring`, the division by determinants is
`div`, see `FlatTri.beq` and `FlatTri.linearSection`. -/
def isomorphisms {Q : Type} [DecidableEq Q] (ring : T → Q) (div : T → T → Option T) (A : Option (Approx T K)) (dbg : Bool)
    (quot : T → T → T) (group : LinearGroup) (oriented : Bool) (fuel : ℕ) (domain codomain : FlatTri T) :
    Option (Except Err (List (Isomorphism T))) :=
  match code A dbg quot group oriented fuel domain with
  | none => none
  | some (.error e) => some (.error e)
  | some (.ok x) => (code A dbg quot group oriented fuel codomain).map fun y => do
    isomorphismsOf ring (back div dbg) codomain x (← y)

end LinearEquivalence

/-- `deformation`, combinatorial_equivalence_walker.cc:139-142. There is no linear map. -/
def Walker.deformation (dbg : Bool) (S N : FlatTri T) (w : Walker) : Except Err (Normalizing T) := do
  let R ← Combinatorial.make dbg S N (← w.table dbg S.tri)
  return ⟨none, R⟩

/-- `code`, combinatorial_equivalence.cc:54-65 with equivalence_walker.hpp:113-123. (The assertion on codes is dropped, see
`combinatorialClass`.) -/
def combinatorialCode (A : Option (Approx T K)) (dbg oriented : Bool) (fuel : ℕ) (S : FlatTri T) :
    Option (Except Err (List (List ℤ) × FlatTri T × List (Normalizing T))) :=
  (combinatorialWord oriented S.tri fuel).map fun (code, walkers) => do
    match walkers with
    | [] => throw (if dbg then .logicError else .undefined)
    | w :: ws =>
      let N ← w.2.normalization A dbg S
      let ds ← (w :: ws).mapM fun w => w.2.deformation dbg S N
      return (code, N, ds)

/-- `isomorphisms`, equivalence.cc:84-108, for combinatorial equivalence. -/
def combinatorialIsomorphisms {Q : Type} [DecidableEq Q] (ring : T → Q) (A : Option (Approx T K)) (dbg oriented : Bool) (fuel : ℕ)
    (domain codomain : FlatTri T) : Option (Except Err (List (Isomorphism T))) :=
  match combinatorialCode A dbg oriented fuel domain with
  | none => none
  | some (.error e) => some (.error e)
  | some (.ok x) => (combinatorialCode A dbg oriented fuel codomain).map fun y => do
    isomorphismsOf ring (fun d => (d.rename.inverse dbg).map fun R => (R, none)) codomain x (← y)

end Verif
