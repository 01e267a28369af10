import Verif.Lemmas.UniqueLarge
import Verif.Props.C125

/-!
# C129: making large edges unique

# C130: contour decompositions of surfaces
-/

namespace Verif.C129

open Verif Spec Tri FlatTri Vec Contour Examples

variable {T : Type} [CommRing T] [LinearOrder T] [IsStrictOrderedRing T]
variable {K : Type*} [Field K] [LinearOrder K] [IsStrictOrderedRing K]
variable {A : Option (Approx T K)} {dbg : Bool} {S : FlatTri T} {v : Vec T} {C : Collapsed T} {n : ℕ}

/-- When `makeUniqueLargeEdge` returns for a large half edge, then there has been no error. The half edge `u` has only been renamed and
turned such that it goes from left to right, its horizontal length is the same. The half edges that are returned are the half edges that
can be joined to it, and among these only `u` is large. -/
theorem makeUniqueLargeEdge (hS : Closed dbg S) (hv : v ≠ 0) (h : BuiltCollapsed A dbg S v C) {u : HE} (hu : u ∈ C.tri.halfEdges)
    (hl : IsLarge C.seen v u) {r : Except Err (Collapsed T × IndexedSet × HE × List HE)}
    (hr : Collapsed.makeUniqueLargeEdge A dbg v n C .empty u = some r) :
    ∃ C' s u' c, r = .ok (C', s, u', c) ∧ BuiltCollapsed A dbg S v C' ∧ u' ∈ C'.tri.halfEdges ∧
      cross (C'.fromHalfEdge u') v = |cross (C.fromHalfEdge u) v| ∧ 0 < cross (C'.fromHalfEdge u') v ∧
      c.Nodup ∧ (∀ y, y ∈ c ↔ Joined C'.seen v u' y) ∧ ∀ y ∈ c, IsLarge C'.seen v y ↔ y = u' ∨ y = neg u' := by
  have hs := h.sane hS.shut hv
  have hu' : u < C.tri.size := by simpa [Tri.halfEdges] using hu
  rw [← hs.vertical] at hl
  obtain ⟨C', s, u', c, rfl, m, w⟩ := Collapsed.makeUniqueLargeEdge_ok hS.shut hv n
    ⟨h, ⟨_, IndexedSet.rep_empty⟩, fun z hz => by rw [IndexedSet.rep_empty.contains] at hz; simp at hz⟩ hu' hl
    (by rw [IndexedSet.rep_empty.contains]; rfl) hr
  have hs' := m.holds.built.sane hS.shut hv
  have pos := m.pos
  rw [hs.vertical, hs'.vertical] at w
  rw [hs'.vertical] at pos
  refine ⟨C', s, u', c, rfl, m.holds.built, by simpa [Tri.halfEdges] using m.lt, w, pos, m.component.1, fun y => ?_, fun y hy => ?_⟩
  · rw [m.component.2, Vertical.joined_iff hs'.good.tame]
    unfold Collapsed.Reach
    rw [hs'.vertical]
  · rw [← hs'.vertical]
    constructor
    · exact m.alone.only y ((m.component.2 y).1 hy)
    · rintro (rfl | rfl)
      · exact m.alone.large
      · exact (hs'.good.isLarge_neg m.lt).2 m.alone.large

/-- In debug builds, half edges that are not large are rejected. -/
theorem makeUniqueLargeEdge_throws (hS : Closed true S) (hv : v ≠ 0) (h : BuiltCollapsed A true S v C) {u : HE} (hu : u ∈ C.tri.halfEdges)
    (hl : ¬ IsLarge C.seen v u) : Collapsed.makeUniqueLargeEdge A true v n C .empty u = some (.error .invalidArgument) := by
  have hs := h.sane hS.shut hv
  have hu' : u < C.tri.size := by simpa [Tri.halfEdges] using hu
  rw [← hs.vertical, ← Collapsed.large_iff hs.good hs.upright hu', Bool.not_eq_true, hs.vertical] at hl
  unfold Collapsed.makeUniqueLargeEdge Vertical.make
  rw [if_neg (by simpa [Vec.nonzero_iff] using hv)]
  dsimp only
  rw [if_pos ⟨rfl, hl⟩]

/-- When `makeUniqueLargeEdges` returns, then there has been no error, and half edges that are joined to each other contain at most one
large edge. Here it does not matter in which order the half edges of equal length have been sorted. -/
theorem makeUniqueLargeEdges (hS : Closed dbg S) (hv : v ≠ 0) (h : BuiltCollapsed A dbg S v C) {sort : (HE → T) → List HE → List HE}
    (hsort : ∀ f l, (sort f l).Perm l) {r : Except Err (Collapsed T)}
    (hr : Collapsed.makeUniqueLargeEdges A dbg sort v n C = some r) :
    ∃ C', r = .ok C' ∧ BuiltCollapsed A dbg S v C' ∧ UniqueLargeEdges C'.seen v :=
  Collapsed.makeUniqueLargeEdges_ok hS.shut hv n hsort h hr

/-! ### Concrete cases -/

/-- Sorting half edges by length. -/
def byLength (f : HE → ℤ) (l : List HE) : List HE := l.insertionSort fun a b => f a ≤ f b

theorem byLength_perm (f : HE → ℤ) (l : List HE) : (byLength f l).Perm l := List.perm_insertionSort _ _

theorem ellAfter_large : IsLarge ellAfter.seen steep 4 := by
  have hs := ellAfter_built.sane flatEll_closed.shut (by decide)
  have := Collapsed.large_iff hs.good hs.upright (e := 4) (by decide +kernel)
  rw [hs.vertical] at this
  exact this.1 (by decide +kernel)

/-- The half edge 2 is flipped, which leads to another collapsed edge. -/
example : Closed true flatEll ∧ steep ≠ 0 ∧ BuiltCollapsed (none : Option (Approx ℤ ℚ)) true flatEll steep ellAfter ∧
    4 ∈ ellAfter.tri.halfEdges ∧ IsLarge ellAfter.seen steep 4 ∧
    ((Collapsed.makeUniqueLargeEdge (none : Option (Approx ℤ ℚ)) true steep 20 ellAfter .empty 4).map fun r => r.toOption.map fun x =>
      (x.1.tri.size, x.2.2)) = some (some (6, 4, [3, 2, 1, 0, 5, 4])) ∧ ellAfter.tri.size = 12 :=
  ⟨flatEll_closed, by decide, ellAfter_built, by decide +kernel, ellAfter_large, by decide +kernel, by decide +kernel⟩

/-- The half edge 0 is not large. -/
example : ¬ IsLarge ellAfter.seen steep 0 := by
  have hs := ellAfter_built.sane flatEll_closed.shut (by decide)
  have := Collapsed.large_iff hs.good hs.upright (e := 0) (by decide +kernel)
  rw [hs.vertical] at this
  exact fun k => absurd (this.2 k) (by decide +kernel)

/-- The large edges are made unique in an L-shaped surface. Its vertical direction decomposes into two cylinders. -/
example : (∀ f l, (byLength f l).Perm l) ∧
    ((Collapsed.makeUniqueLargeEdges (none : Option (Approx ℤ ℚ)) true byLength steep 20 ellBefore).map fun r => r.toOption.map fun C =>
      C.tri.size) = some (some 4) ∧ ellBefore.tri.size = 18 :=
  ⟨byLength_perm, by decide +kernel, by decide +kernel⟩

end Verif.C129

namespace Verif.C130

open Verif Spec Tri FlatTri Vec Contour Examples Collapsed

variable {T : Type} [CommRing T] [LinearOrder T] [IsStrictOrderedRing T]
variable {K : Type*} [Field K] [LinearOrder K] [IsStrictOrderedRing K]
variable {A : Option (Approx T K)} {dbg : Bool} {S : FlatTri T} {v : Vec T} {n : ℕ}

/-- When the constructor returns, then there has been no error. The collapsed surface has been obtained by collapsing and flipping edges.
Each of its half edges is in exactly one component. No half edge shows up twice in the perimeters. Each half edge in a perimeter, also
shows up with the opposite sign in the same perimeter. The perimeters can be computed, they are closed, and they consist of the
connections that have been collapsed, each of them once, and of the half edges at the bottom, once with each sign. The areas of the
components add up to the area of the surface. -/
theorem decomposition (hS : Closed dbg S) (hv : v ≠ 0) {sort : (HE → T) → List HE → List HE} (hsort : ∀ f l, (sort f l).Perm l)
    {r : Except Err (Collapsed T × List Component)} (hr : contourDecomposition A dbg sort n S v = some r) :
    ∃ C ds N, ∃ P : Component → List (Vec T), r = .ok (C, ds) ∧ BuiltCollapsed A dbg S v C ∧ UniqueLargeEdges C.seen v ∧
      (ds.flatMap Component.halfEdges).Perm C.tri.halfEdges ∧ (ds.flatMap Component.perimeter).Nodup ∧
      (∀ d ∈ ds, ∀ x ∈ d.perimeter, neg x ∈ d.perimeter) ∧
      (∀ d ∈ ds, (P d).sum = 0 ∧ 0 ≤ Vec.area2 (P d) ∧ ∀ m ≥ N, perimeter A dbg C m d = pure (P d)) ∧
      (ds.flatMap P : Multiset (Vec T)) = collapsedConnections C + C127.horizontals C ds + (C127.horizontals C ds).map (- ·) ∧
      (ds.map fun d => Vec.area2 (P d)).sum = S.area2 := by
  unfold contourDecomposition at hr
  cases h1 : Collapsed.make A dbg n S v with
  | none => rw [h1] at hr; cases hr
  | some x =>
    rw [h1] at hr
    obtain ⟨C0, rfl, -, -⟩ := make_unique hS.shut hv h1
    dsimp only at hr
    cases h2 : Collapsed.makeUniqueLargeEdges A dbg sort v n C0 with
    | none => rw [h2] at hr; cases hr
    | some y =>
      rw [h2] at hr
      obtain ⟨C, rfl, hC, hu⟩ := makeUniqueLargeEdges_ok hS.shut hv n hsort (.make h1) h2
      dsimp only at hr
      cases h3 : Contour.decompose ⟨C.tri, C.vec⟩ A dbg C.vertical n with
      | none => rw [h3] at hr; cases hr
      | some z =>
        rw [h3] at hr
        have same : ∀ {ds : List Component} {N : ℕ}, (∀ m ≥ N, Collapsed.components A dbg C m = some (.ok ds)) → z = .ok ds := by
          intro ds N hN
          have := Contour.decompose_mono (le_max_left n N) h3
          exact Option.some.inj (this.symm.trans (hN (max n N) (le_max_right _ _)))
        obtain ⟨ds, N0, c1, c2, -⟩ := C125.components_correct hS hv hC dbg
        obtain rfl := same c1
        have same' : ∀ {ds' : List Component} {N : ℕ}, (∀ m ≥ N, Collapsed.components A dbg C m = some (.ok ds')) → ds' = ds := by
          intro ds' N hN
          injection same hN with k
          exact k.symm
        obtain ⟨ds1, N1, d1, d2, d3⟩ := C125.signs hS hv hC hu dbg
        obtain rfl := same' d1
        obtain ⟨ds2, N2, P, e1, e2, e3⟩ := C127.connections hS hv hC hu dbg
        obtain rfl := same' e1
        obtain ⟨ds3, N3, f1, f2⟩ := C127.closed hS hv hC dbg
        obtain rfl := same' f1
        obtain ⟨ds4, N4, a, g1, g2, g3⟩ := C128.areas hS hv hC hu dbg
        obtain rfl := same' g1
        obtain ⟨ds5, N5, i1, i2⟩ := C128.nonneg hS hv hC dbg
        obtain rfl := same' i1
        injection hr with hr
        have pure_inj : ∀ {α : Type} {x y : α}, (pure x : Run α) = pure y → x = y := by
          intro α x y h
          injection Option.some.inj h
        have key : ∀ d ∈ ds5, (P d).sum = 0 ∧ 0 ≤ Vec.area2 (P d) ∧ Vec.area2 (P d) = a d := by
          intro d hd
          have hp := e2 d hd (max (max N2 N3) (max N4 N5)) (by omega)
          obtain ⟨Q, q1, q2⟩ := f2 d hd
          have hq := q1 (max (max N2 N3) (max N4 N5)) (by omega)
          rw [hp] at hq
          rw [pure_inj hq]
          obtain ⟨b, b1, b2⟩ := i2 d hd
          have hb := (b2 (max (max N2 N3) (max N4 N5)) (by omega)).1
          have ha := g2 d hd (max (max N2 N3) (max N4 N5)) (by omega)
          have hab : a d = b := pure_inj (ha.symm.trans hb)
          rw [pure_inj hq] at hp
          have : Vec.area2 Q = a d := by
            unfold componentArea2 at ha
            rw [hp, pure_bind] at ha
            unfold polygonArea2 at ha
            split_ifs at ha
            · cases Option.some.inj ha
            · cases Option.some.inj ha
            · exact pure_inj ha
          exact ⟨q2, by rw [this, hab]; exact b1, this⟩
        refine ⟨C, ds5, N2, P, hr.symm, hC, hu, c2, d2, d3, fun d hd => ⟨(key d hd).1, (key d hd).2.1, fun m hm => e2 d hd m hm⟩, e3, ?_⟩
        rw [← g3]
        exact congrArg List.sum (List.map_congr_left fun d hd => (key d hd).2.2)

/-! ### Concrete cases -/

/-- The L-shaped surface consists of two components, and it has only one component in another direction. -/
example : Closed true flatEll ∧ steep ≠ 0 ∧ (∀ f l, (C129.byLength f l).Perm l) ∧
    ((contourDecomposition (none : Option (Approx ℤ ℚ)) true C129.byLength 20 flatEll steep).map fun r => r.toOption.map fun x => x.2) =
      some (some [⟨[1, 0], 1, [0], [1]⟩, ⟨[3, 2], 2, [3], [2]⟩]) ∧
    ((contourDecomposition (none : Option (Approx ℤ ℚ)) true C129.byLength 20 flatEll ⟨2, 1⟩).map fun r => r.toOption.map fun x => x.2) =
      some (some [⟨[2, 3, 4, 5, 1, 0], 5, [2, 1], [3, 0]⟩, ⟨[7, 6], 7, [6], [7]⟩]) :=
  ⟨flatEll_closed, by decide, C129.byLength_perm, by decide +kernel, by decide +kernel⟩

end Verif.C130
