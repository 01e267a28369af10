import Verif.Model.Equivalence
import Verif.Model.LinearEquivalence

/-!
# Comparison of equivalences and of equivalence classes

Equivalences are shared pointers. They are modelled by addresses, `impl` is the object at each address. For custom normalization
functions, the codes of surfaces are not modelled.
-/

namespace Verif

variable {T : Type} [CommRing T] [LinearOrder T]

/-- `LinearEquivalence::Normalization`, impl/linear_equivalence.hpp:41-47. -/
inductive Normalization (T : Type)
  | group (group : LinearGroup)
  | custom (normalize : FlatTri T → HE → HE → Mat T)

/-- `CombinatorialEquivalence` and `LinearEquivalence`, impl/combinatorial_equivalence.hpp and impl/linear_equivalence.hpp. -/
inductive EquivalenceImpl (T : Type)
  | combinatorial (oriented : Bool)
  | linear (oriented : Bool) (normalization : Normalization T)

namespace EquivalenceImpl

/-- `unlabeled`, equivalence.cc:43-51. -/
def unlabeled : EquivalenceImpl T := .linear true (.group .trivial)

/-- `areaPreserving`, equivalence.cc:53-58. -/
def areaPreserving (oriented : Bool) : EquivalenceImpl T := .linear oriented (.group .sl)

/-- `linear`, equivalence.cc:60-66. -/
def ofLinear (oriented : Bool) (normalization : Option (FlatTri T → HE → HE → Mat T)) : EquivalenceImpl T :=
  match normalization with
  | none => .linear oriented (.group .gl)
  | some normalize => .linear oriented (.custom normalize)

/-- `operator==` for equivalences, equivalence.cc:77-80, with `equal`, combinatorial_equivalence.cc:35-46 and
linear_equivalence.cc:64-87. -/
def equal (impl : ℕ → EquivalenceImpl T) (a b : ℕ) : Bool :=
  match impl a, impl b with
  | .combinatorial oriented, .combinatorial oriented' => if a = b then true else decide (oriented = oriented')
  | .linear oriented normalization, .linear oriented' normalization' =>
    if a = b then true
    else if oriented ≠ oriented' then false
    else match normalization, normalization' with
      | .group g, .group g' => decide (g = g')
      | _, _ => false
  | _, _ => false

/-- `EquivalenceClassCode`. -/
inductive Code (T : Type)
  | combinatorial (word : List (List ℤ))
  | linear (word : List (List ℤ × Vec T))

/-- `equal` for codes, combinatorial_equivalence_class_code.cc:80-86 and linear_equivalence_class_code.cc:50-57. -/
def Code.equal : Code T → Code T → Bool
  | .combinatorial w, .combinatorial w' => decide (w = w')
  | .linear w, .linear w' => decide (w = w')
  | _, _ => false

/-- The code of an equivalence class, equivalence_class.cc:49-58. -/
def code (dbg : Bool) (quot : T → T → T) (fuel : ℕ) (S : FlatTri T) : EquivalenceImpl T → Option (Except Err (Code T))
  | .combinatorial oriented => (combinatorialClass dbg oriented S.tri fuel).map fun r => r.map fun c => .combinatorial c.1
  | .linear oriented (.group g) => (LinearEquivalence.linearClass dbg quot g oriented S fuel).map fun r => r.map fun c => .linear c.1
  | .linear _ (.custom _) => none

/-- `operator==` for equivalence classes, equivalence_class.cc:34-37. -/
def classesEqual (dbg : Bool) (quot : T → T → T) (fuel : ℕ) (impl : ℕ → EquivalenceImpl T) (a : ℕ) (S : FlatTri T) (b : ℕ)
    (S' : FlatTri T) : Option (Except Err Bool) :=
  match code dbg quot fuel S (impl a), code dbg quot fuel S' (impl b) with
  | some (.ok c), some (.ok c') => some (.ok (c.equal c' && equal impl a b))
  | some (.error err), _ => some (.error err)
  | none, _ => none
  | some (.ok _), some (.error err) => some (.error err)
  | some (.ok _), none => none

/-- `isomorphic`, equivalence.cc:68-71. -/
def isomorphic (dbg : Bool) (quot : T → T → T) (fuel : ℕ) (impl : ℕ → EquivalenceImpl T) (a : ℕ) (S S' : FlatTri T) :
    Option (Except Err Bool) :=
  classesEqual dbg quot fuel impl a S a S'

end EquivalenceImpl

end Verif
