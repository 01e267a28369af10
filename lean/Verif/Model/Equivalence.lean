import Verif.Model.FlatTriangulation
import Mathlib.Data.List.Lex

/-!
# Equivalence of surfaces (libflatsurf/src/impl/equivalence_walker.hpp, combinatorial_equivalence_walker.cc,
combinatorial_equivalence.cc, equivalence_class.cc)
-/

namespace Verif

/-- `CombinatorialEquivalenceWalker`, impl/combinatorial_equivalence_walker.hpp:68-83: the map `labels` with its `size()`,
the vector `labeled` and the number of steps. -/
structure Walker where
  labels : HE → Option ℕ
  count : ℕ
  labeled : List HE
  steps : ℕ

namespace Walker

/-- The constructor, combinatorial_equivalence_walker.cc:36-42. -/
def make (start : HE) : Walker := ⟨fun e => if e = neg start then some 0 else none, 1, [neg start], 0⟩

/-- `label`, combinatorial_equivalence_walker.cc:106-132. -/
def label (w : Walker) (e : HE) : ℤ × Walker :=
  if w.labeled.head? = some e then (0, w)
  else match w.labels e with
    | some l => (l, w)
    | none => match w.labels (neg e) with
      | some l => (-(l : ℤ), w)
      | none => (w.count,
        { w with
          labels := fun x => if x = e then some w.count else w.labels x
          count := w.count + 1
          labeled := w.labeled ++ [e] })

/-- How the walk around a face continues, combinatorial_equivalence_walker.cc:68, for orientation 1 and -1. -/
def advance (T : Tri) (orientation : Bool) (pos : HE) : HE :=
  if orientation then T.nextInFace pos else neg (T.previousAtVertex (neg (T.previousAtVertex pos)))

/-- The loop in `step`, combinatorial_equivalence_walker.cc:63-84. -/
def walk (next : HE → HE) (start : HE) : ℕ → Walker → HE → List ℤ → Option (List ℤ × Walker)
  | 0, _, _, _ => none
  | fuel + 1, w, pos, character =>
    let pos := next pos
    if pos = start then some (character, w)
    else
      let r := w.label pos
      let l := r.1
      let w := r.2
      if 0 < l ∧ l < w.steps then some ([], w)
      else if l < 0 ∧ -l < (w.steps : ℤ) - 1 then some ([], w)
      else walk next start fuel w pos (character ++ [l])

/-- `step`, combinatorial_equivalence_walker.cc:45-87; `none` if the loop does not terminate. -/
def step (next : HE → HE) (fuel : ℕ) (w : Walker) : Option (Option (List ℤ) × Walker) :=
  match w.labeled[w.steps]? with
  | none => some (none, w)
  | some cross =>
    let w := { w with steps := w.steps + 1 }
    let start := neg cross
    if (w.labels start).isSome then some (some [], w)
    else (walk next start fuel w start []).map fun r => (some r.1, r.2)

/-- `cmp`, combinatorial_equivalence_walker.cc:89-98. -/
def cmp (lhs rhs : List ℤ) : Ordering := if lhs < rhs then .lt else if lhs > rhs then .gt else .eq

/-- `relabeling`, combinatorial_equivalence_walker.cc:145-170; `none` if a half edge has not been seen, which is asserted in
debug builds and undefined behavior otherwise. -/
def relabeling (w : Walker) (e : HE) : Option HE :=
  match w.labels e with
  | some l => some (2 * l)
  | none => match w.labels (neg e) with
    | some l => some (2 * l + 1)
    | none => none

end Walker

namespace EquivalenceWalker

variable {W C : Type}

/-- One pass over the walkers which are still minimal, equivalence_walker.hpp:76-101. The walkers are changed in place; a
walker that has been dropped is not used anymore, so these are not kept. -/
def round (step : W → Option (Option C × W)) (cmp : C → C → Ordering) :
    List W → List W → Option C → Option (List W × Option C)
  | [], still, minimal => some (still, minimal)
  | w :: ws, still, minimal =>
    match step w with
    | none => none
    | some (none, _) => round step cmp ws still minimal
    | some (some c, w) =>
      match minimal with
      | none => round step cmp ws [w] (some c)
      | some m =>
        match cmp c m with
        | .lt => round step cmp ws [w] (some c)
        | .eq => round step cmp ws (still ++ [w]) minimal
        | .gt => round step cmp ws still minimal

/-- The loop in `word`, equivalence_walker.hpp:75-112. Walkers which are finished do not change when `step` is called
again. -/
def loop (step : W → Option (Option C × W)) (cmp : C → C → Ordering) :
    ℕ → List W → List C → Option (List C × List W)
  | 0, _, _ => none
  | fuel + 1, ws, word =>
    match round step cmp ws [] none with
    | none => none
    | some (_, none) => some (word, ws)
    | some (still, some c) => loop step cmp fuel still (word ++ [c])

/-- `word`, equivalence_walker.hpp:42-124: the minimal code word and the walkers which produced it. -/
def word (step : W → Option (Option C × W)) (cmp : C → C → Ordering) (fuel : ℕ) (walkers : List W) :
    Option (List C × List W) := loop step cmp fuel walkers []

end EquivalenceWalker

/-- The assertion in the constructor of codes, combinatorial_equivalence_class_code.cc:32-70. -/
def codeOk (word : List (List ℤ)) : Bool :=
  let cells := word.zipIdx.filter fun c => c.1 ≠ []
  let min := cells.foldl (fun m c => c.1.foldl (fun m l => if l < 0 then Min.min m l else m) (Min.min m (-(c.2 : ℤ)))) 0
  let max := cells.foldl (fun m c => c.1.foldl (fun m l => if l < 0 then m else Max.max m l) m) 0
  let labels : ℤ → ℕ := fun label => (cells.map fun c =>
    (if (c.2 : ℤ) = label then 2 else 0) +
      (c.1.map fun l => if l < 0 then (if -l = label then 2 else 0) else (if l = label then 1 else 0)).sum).sum
  decide (max = -min) && (List.range (max.toNat + 1)).all fun label => labels label == 3

/-- The walkers of a surface, combinatorial_equivalence.cc:55-62; each walker comes with its orientation. -/
def combinatorialWalkers (oriented : Bool) (T : Tri) : List (Bool × Walker) :=
  T.halfEdges.flatMap fun start => (true, Walker.make start) :: if oriented then [] else [(false, Walker.make start)]

/-- The word of a surface and the walkers which produced it, combinatorial_equivalence.cc:54-65. -/
def combinatorialWord (oriented : Bool) (T : Tri) (fuel : ℕ) : Option (List (List ℤ) × List (Bool × Walker)) :=
  EquivalenceWalker.word (fun w => (w.2.step (Walker.advance T w.1) fuel).map fun r => (r.1, (w.1, r.2)))
    Walker.cmp fuel (combinatorialWalkers oriented T)

/-- `EquivalenceClass`, equivalence_class.cc:49-58 with equivalence_walker.hpp:115-124: the code and the number of
automorphisms, for combinatorial equivalence. That there are walkers, that they have seen the entire surface, and that the
code is well-formed is asserted in debug builds; without walkers, or if half edges are missing, the behavior is undefined in
other builds. The surface that represents the class is not modelled here. -/
def combinatorialClass (dbg oriented : Bool) (T : Tri) (fuel : ℕ) : Option (Except Err (List (List ℤ) × ℕ)) :=
  (combinatorialWord oriented T fuel).map fun r =>
    if r.2 = [] then .error (if dbg then .logicError else .undefined)
    else if ¬ ∀ w ∈ r.2, ∀ e ∈ T.halfEdges, (w.2.relabeling e).isSome then .error (if dbg then .logicError else .undefined)
    else if dbg && !codeOk r.1 then .error .logicError
    else .ok (r.1, r.2.length)

end Verif
