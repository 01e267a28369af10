import Verif.Model.Collapsed
import Verif.Model.Contour

/-!
# Making large edges unique

Model of `makeUniqueLargeEdges` and `makeUniqueLargeEdge` in libflatsurf/src/interval_exchange_transformation.cc for collapsed surfaces,
and of the constructor of contour decompositions.

Values of the vertical are not cached here. The result `none` says that a loop has not ended after the given number of rounds.
-/

namespace Verif.Collapsed

open Contour

variable {T : Type} [CommRing T] [LinearOrder T]
variable {K : Type*} [Field K] [LinearOrder K] [IsStrictOrderedRing K]

/-! ### Visitors -/

/-- `ImplementationOf<Vertical>::visit`, vertical.cc:223-241: the half edge at which the visitor returned false or the half edges that have
been visited. -/
def visitUntil (A : Option (Approx T K)) (C : Collapsed T) (v : Vec T) (visitor : HE → Bool) : ℕ → HE → List HE → Option (HE ⊕ List HE)
  | 0, _, _ => none
  | fuel + 1, start, component =>
    if start ∈ component then some (.inr component)
    else if visitor start = false then some (.inl start)
    else if Vec.ccw A v (C.vec start) = .collinear then some (.inr (start :: component))
    else
      match visitUntil A C v visitor fuel (neg start) (start :: component) with
      | none => none
      | some (.inl e) => some (.inl e)
      | some (.inr component) =>
        match visitUntil A C v visitor fuel (C.tri.nextInFace start) component with
        | none => none
        | some (.inl e) => some (.inl e)
        | some (.inr component) => visitUntil A C v visitor fuel (C.tri.previousInFace start) component

/-! ### Tracked data -/

/-- What is attached to the surface: the variable `sources` in interval_exchange_transformation.cc:84-87, as indexes of edges, and the
variable `unique` in interval_exchange_transformation.cc:238, if there is one. -/
structure Attached where
  sources : IndexedSet
  unique : Option HE

/-- The handlers after a flip and before a collapse, interval_exchange_transformation.cc:85 and tracked.cc:83-86, 101-104. -/
def Attached.check (dbg : Bool) (x : Attached) (e : HE) : Except Err Unit :=
  if dbg ∧ x.sources.contains (e / 2) then .error .logicError
  else match x.unique with
    | none => .ok ()
    | some u => if u / 2 = e / 2 then .error .logicError else .ok ()

/-- The handlers before half edges are swapped, interval_exchange_transformation.cc:85 and tracked.cc:112-120. -/
def Attached.swap (a b : HE) (x : Attached) : Attached :=
  ⟨Tracked.swapEdgeSet a b x.sources, x.unique.map (Tracked.swapHalfEdge a b)⟩

/-- The handlers before edges are erased, interval_exchange_transformation.cc:86-87 and tracked.cc:155-157. -/
def Attached.erase (dbg : Bool) (drop : List ℕ) (x : Attached) : Except Err Attached :=
  if dbg ∧ drop.any x.sources.contains then .error .logicError
  else match x.unique with
    | none => .ok ⟨Tracked.eraseEdgeSet drop x.sources, none⟩
    | some u =>
      match Tracked.eraseHalfEdge drop u with
      | .error err => .error err
      | .ok u => .ok ⟨Tracked.eraseEdgeSet drop x.sources, some u⟩

/-- The combinatorial surface and the half edge for which a flip calls `collapse`, flat_triangulation_collapsed.cc:412-435, if the half edge
is vertical after the flip. -/
def collapsesAt (A : Option (Approx T K)) (dbg : Bool) (C : Collapsed T) (e : HE) : Option (Tri × HE) :=
  let e := if Vec.ccw A C.vertical (C.vec e) = .counterclockwise then neg e else e
  match C.tri.flip dbg e with
  | (_, .error _) => none
  | (S, .ok ()) =>
    match afterFlip dbg S e ⟨C.vec, C.conn⟩ with
    | .error _ => none
    | .ok m => if Vec.ccw A C.vertical (m.vec e) = .collinear then some (S, e) else none

/-- `flip` with the handlers of the attached data. The state after an exception is not modelled. -/
def flipTracked (A : Option (Approx T K)) (dbg : Bool) (C : Collapsed T) (e : HE) (x : Attached) : Except Err (Collapsed T × Attached) :=
  match C.flip A dbg e with
  | (_, .error err) => .error err
  | (C', .ok ()) => do
    x.check dbg e
    match C.collapsesAt A dbg e with
    | none => return (C', x)
    | some (S, e) =>
      x.check dbg e
      let (r, x) ← S.renameTracked Attached.swap e x
      let x ← x.erase dbg (Tri.sorted (S.size / 2) r.drop)
      return (C', x)

/-! ### Large edges -/

/-- The visitor in interval_exchange_transformation.cc:252-262; it returns false when an edge is going to be flipped. -/
def visitor (C : Collapsed T) (v : Vec T) (unique e : HE) : Bool :=
  if e = unique ∨ e = neg unique then true else !Contour.large ⟨C.tri, C.vec⟩ v e

/-- The loop in `makeUniqueLargeEdge`, interval_exchange_transformation.cc:250-267. The result are the surface, the variables `sources` and
`unique_`, and the returned component. The assertion aborts the program, this is `undefined` here. -/
def uniqueLoop (A : Option (Approx T K)) (dbg : Bool) (v : Vec T) (n : ℕ) : ℕ → Collapsed T → IndexedSet → HE →
    Option (Except Err (Collapsed T × IndexedSet × HE × List HE))
  | 0, _, _, _ => none
  | fuel + 1, C, sources, unique =>
    match visitUntil A C v (visitor C v unique) n unique [] with
    | none => none
    | some (.inr component) =>
      if dbg ∧ component.length < 2 then some (.error .undefined) else some (.ok (C, sources, unique, component))
    | some (.inl e) =>
      match flipTracked A dbg C e ⟨sources, some unique⟩ with
      | .error err => some (.error err)
      | .ok (C, x) =>
        match x.unique with
        | none => some (.error .undefined)
        | some unique => uniqueLoop A dbg v n fuel C x.sources unique

/-- `makeUniqueLargeEdge`, interval_exchange_transformation.cc:236-268. -/
def makeUniqueLargeEdge (A : Option (Approx T K)) (dbg : Bool) (v : Vec T) (n : ℕ) (C : Collapsed T) (sources : IndexedSet) (unique : HE) :
    Option (Except Err (Collapsed T × IndexedSet × HE × List HE)) :=
  match Vertical.make v with
  | .error err => some (.error err)
  | .ok _ =>
    if dbg ∧ Contour.large ⟨C.tri, C.vec⟩ v unique = false then some (.error .invalidArgument)
    else uniqueLoop A dbg v n n C sources (if Vec.ccw A v (C.vec unique) = .counterclockwise then neg unique else unique)

/-- The variable `larges`, interval_exchange_transformation.cc:94-99. -/
def larges (A : Option (Approx T K)) (C : Collapsed T) (v : Vec T) (sources : IndexedSet) : List HE :=
  C.tri.halfEdges.filter fun e =>
    !sources.contains (e / 2) && Contour.large ⟨C.tri, C.vec⟩ v e && decide (Vec.ccw A v (C.vec e) ≠ .counterclockwise)

/-- The loop in `makeUniqueLargeEdges`, interval_exchange_transformation.cc:93-142. Here `sort` is `std::sort` which is given the
horizontal lengths of the half edges. -/
def uniquesLoop (A : Option (Approx T K)) (dbg : Bool) (sort : (HE → T) → List HE → List HE) (v : Vec T) (n : ℕ) : ℕ → Collapsed T →
    IndexedSet → Option (Except Err (Collapsed T))
  | 0, _, _ => none
  | fuel + 1, C, sources =>
    match (sort (Contour.length ⟨C.tri, C.vec⟩ v) (larges A C v sources)).getLast? with
    | none => some (.ok C)
    | some source =>
      match makeUniqueLargeEdge A dbg v n C sources source with
      | none => none
      | some (.error err) => some (.error err)
      | some (.ok (C, sources, source, _)) =>
        match Contour.iet ⟨C.tri, C.vec⟩ A dbg v n source with
        | none => none
        | some (.error err) => some (.error err)
        | some (.ok (top, bottom)) =>
          let trivial : Bool := top.length = 1
          let trivialStart : Bool := top.head?.map (· / 2) = bottom.head?.map (· / 2)
          let trivialEnd : Bool := top.getLast?.map (· / 2) = bottom.getLast?.map (· / 2)
          if !trivial && (trivialStart || trivialEnd) then
            match flipTracked A dbg C source ⟨sources, none⟩ with
            | .error err => some (.error err)
            | .ok (C, x) => uniquesLoop A dbg sort v n fuel C x.sources
          else uniquesLoop A dbg sort v n fuel C (sources.insert (source / 2))

/-- `makeUniqueLargeEdges`, interval_exchange_transformation.cc:82-143. -/
def makeUniqueLargeEdges (A : Option (Approx T K)) (dbg : Bool) (sort : (HE → T) → List HE → List HE) (v : Vec T) (n : ℕ) (C : Collapsed T) :
    Option (Except Err (Collapsed T)) :=
  match Vertical.make v with
  | .error err => some (.error err)
  | .ok _ => uniquesLoop A dbg sort v n n C IndexedSet.empty

/-- The constructor of `ContourDecompositionState` for a `FlatTriangulation`, contour_decomposition_state.cc:32-50. -/
def contourDecomposition (A : Option (Approx T K)) (dbg : Bool) (sort : (HE → T) → List HE → List HE) (n : ℕ) (S : FlatTri T) (v : Vec T) :
    Option (Except Err (Collapsed T × List Component)) :=
  match Collapsed.make A dbg n S v with
  | none => none
  | some (.error err) => some (.error err)
  | some (.ok C) =>
    match makeUniqueLargeEdges A dbg sort v n C with
    | none => none
    | some (.error err) => some (.error err)
    | some (.ok C) =>
      match Contour.decompose ⟨C.tri, C.vec⟩ A dbg C.vertical n with
      | none => none
      | some (.error err) => some (.error err)
      | some (.ok ds) => some (.ok (C, ds))

end Verif.Collapsed
