import Verif.Lemmas.ContourCollapsed
import Verif.Lemmas.ContourFuel
import Verif.Lemmas.CollapsedExamples
import Verif.Props.C30

/-!
# C125: contours of collapsed surfaces

# C126: the connections on the contour of a collapsed surface

# C127: perimeters of the contour components of a collapsed surface

# C128: areas of the contour components of a collapsed surface

A collapsed surface `C` is looked at as the triangulation `C.seen`, given by its faces and by its function `fromHalfEdge`.
-/

namespace Verif.C125

open Verif Spec Tri FlatTri Vec Contour Examples

variable {T : Type} [CommRing T] [LinearOrder T] [IsStrictOrderedRing T]
variable {K : Type*} [Field K] [LinearOrder K] [IsStrictOrderedRing K]
variable {A : Option (Approx T K)} {dbg : Bool} {S : FlatTri T} {v : Vec T} {C : Collapsed T}

/-- The contours of collapsed surfaces can be computed without an error. Each half edge is in exactly one of the components, the
components consist of the half edges that can be joined without crossing a vertical edge. Each component has a large half edge from
left to right. Its bottom goes from left to right, its top goes from right to left. No half edge shows up twice on the perimeter. -/
theorem components_correct (hS : Closed dbg S) (hv : v ≠ 0) (h : BuiltCollapsed A dbg S v C) (dbg' : Bool) :
    ∃ ds N, (∀ n ≥ N, Collapsed.components A dbg' C n = some (.ok ds)) ∧ (ds.flatMap Component.halfEdges).Perm C.tri.halfEdges ∧
      ∀ d ∈ ds, (∀ x ∈ d.halfEdges, ∀ y, y ∈ d.halfEdges ↔ Joined C.seen v x y) ∧
        d.large ∈ d.halfEdges ∧ IsLarge C.seen v d.large ∧ 0 < cross (C.fromHalfEdge d.large) v ∧
        d.bottomEdges ≠ [] ∧ d.topEdges ≠ [] ∧ LeftToRight C.seen v d.bottomEdges ∧ RightToLeft C.seen v d.topEdges ∧
        d.perimeter.Nodup ∧ ∀ x ∈ d.perimeter, x ∈ d.halfEdges := by
  have hs := h.sane hS.shut hv
  have hr := hs.good.ready hs.upright
  obtain ⟨ds, cs, h1, h2, h3, h4, N, h5⟩ := decompose_built hr A dbg'
  rw [← hs.vertical]
  refine ⟨ds, N, fun n hn => (h5 n hn).2, ?_, fun d hd => ?_⟩
  · have := Collapsed.flatten_perm hr h2 h3
    rwa [← h1] at this
  · obtain ⟨mu, lu, md, ld, b⟩ := h4 d hd
    obtain ⟨_, _, _, _, _, _, F⟩ := hs.good.frame hs.upright b
    obtain ⟨su, sd⟩ := F.both hs.good hs.upright
    refine ⟨fun x hx y => ?_, b.mem, b.large, b.pos, sd.gaps.ne_nil, su.gaps.ne_nil, F.signs.bottom, F.signs.top, F.nodup,
      fun x hx => b.perimeter_sub hr hx⟩
    obtain ⟨-, s, -, -, s3⟩ := h2.comp d.halfEdges (h1 ▸ List.mem_map_of_mem hd)
    have jx := (Vertical.joined_iff hr.tame).1 ((s3 x).1 hx)
    have js := Vertical.reach_symm hr.tame jx (hr.ok.ne x (b.part.lt x hx))
    rw [s3, Vertical.joined_iff hr.tame, Vertical.joined_iff hr.tame]
    exact ⟨fun k => js.trans k, fun k => jx.trans k⟩

/-- When going around the perimeter, each half edge starts at the vertex at which the previous one ends. -/
theorem perimeter_closed (hS : Closed dbg S) (hv : v ≠ 0) (h : BuiltCollapsed A dbg S v C) (dbg' : Bool) :
    ∃ ds N, (∀ n ≥ N, Collapsed.components A dbg' C n = some (.ok ds)) ∧
      ∀ d ∈ ds, ∀ x y, Follows d.perimeter x y → C.tri.source (neg x) = C.tri.source y := by
  have hs := h.sane hS.shut hv
  obtain ⟨ds, cs, h1, h2, h3, h4, N, h5⟩ := decompose_built (hs.good.ready hs.upright) A dbg'
  refine ⟨ds, N, fun n hn => (h5 n hn).2, fun d hd x y hxy => ?_⟩
  obtain ⟨mu, lu, md, ld, b⟩ := h4 d hd
  obtain ⟨_, _, _, _, _, _, F⟩ := hs.good.frame hs.upright b
  exact F.source hs.good hs.upright (h.vertexes hS.shut hv) hxy

/-- When there is a unique large edge in each component, then no half edge shows up twice in the perimeters of the components, and each
half edge that shows up, also shows up with the opposite sign in the same perimeter. -/
theorem signs (hS : Closed dbg S) (hv : v ≠ 0) (h : BuiltCollapsed A dbg S v C) (hu : UniqueLargeEdges C.seen v) (dbg' : Bool) :
    ∃ ds N, (∀ n ≥ N, Collapsed.components A dbg' C n = some (.ok ds)) ∧ (ds.flatMap Component.perimeter).Nodup ∧
      ∀ d ∈ ds, ∀ x ∈ d.perimeter, neg x ∈ d.perimeter := by
  have hs := h.sane hS.shut hv
  have hr := hs.good.ready hs.upright
  rw [← hs.vertical] at hu
  obtain ⟨ds, cs, h1, h2, h3, h4, N, h5⟩ := decompose_built hr A dbg'
  refine ⟨ds, N, fun n hn => (h5 n hn).2, ?_, fun d hd x hx => ?_⟩
  · rw [List.nodup_flatMap]
    refine ⟨fun d hd => ?_, ?_⟩
    · obtain ⟨mu, lu, md, ld, b⟩ := h4 d hd
      exact b.nodup hr
    · have hp := h2.pair
      rw [← h1, List.pairwise_map] at hp
      refine List.Pairwise.imp_of_mem (fun {c d} hc hd hcd x hx hx' => ?_) hp
      obtain ⟨mu, lu, md, ld, b⟩ := h4 c hc
      obtain ⟨mu', lu', md', ld', b'⟩ := h4 d hd
      have m1 := b.perimeter_sub hr hx
      exact hr.ok.ne x (b.part.lt x m1) (hcd x m1 (b'.perimeter_sub hr hx'))
  · obtain ⟨mu, lu, md, ld, b⟩ := h4 d hd
    exact b.neg_perimeter hr (uniqueLarge hr hu h2 (h1 ▸ List.mem_map_of_mem hd)) hx

/-! ### Concrete cases -/

theorem ellUnique_unique : UniqueLargeEdges ellUnique.seen steep := by
  have hs := ellUnique_built.sane flatEll_closed.shut (by decide)
  have hr := hs.good.ready hs.upright
  rw [hs.vertical] at hr
  intro x hx y hy hj h1 h2
  clear hj
  rw [mem_halfEdges] at hx hy
  rw [← hr.large_iff hx] at h1
  rw [← hr.large_iff hy] at h2
  have e : ellUnique.seen.tri.size = 6 := by decide +kernel
  rw [e] at hx hy
  have : ∀ x < 6, ∀ y < 6, Contour.large ellUnique.seen steep x = true → Contour.large ellUnique.seen steep y = true → y = x ∨ y = neg x := by
    decide +kernel
  exact this x hx y hy h1 h2

/-- A surface with collapsed edges and unique large edges. -/
example : Closed true flatEll ∧ steep ≠ 0 ∧ BuiltCollapsed (none : Option (Approx ℤ ℚ)) true flatEll steep ellUnique ∧
    UniqueLargeEdges ellUnique.seen steep ∧ ellUnique.tri.size < flatEll.tri.size :=
  ⟨flatEll_closed, by decide, ellUnique_built, ellUnique_unique, by decide +kernel⟩

/-- There are surfaces on which the large edges are not unique. -/
example : BuiltCollapsed (none : Option (Approx ℤ ℚ)) true flatEll steep ellAfter := ellAfter_built

end Verif.C125

namespace Verif.C126

open Verif Spec Tri FlatTri Vec Contour Examples Collapsed

variable {T : Type} [CommRing T] [LinearOrder T] [IsStrictOrderedRing T]
variable {K : Type*} [Field K] [LinearOrder K] [IsStrictOrderedRing K]
variable {A : Option (Approx T K)} {dbg : Bool} {S : FlatTri T} {v : Vec T} {C : Collapsed T}

/-- The vectors are parallel to `v` and point into the same direction. -/
def Upward (v : Vec T) (l : List (Vec T)) : Prop := ∀ k ∈ l, Vec.cross v k = 0 ∧ 0 < Vec.dot v k

/-- The vectors are parallel to `v` and point into the opposite direction. -/
def Downward (v : Vec T) (l : List (Vec T)) : Prop := ∀ k ∈ l, Vec.cross v k = 0 ∧ Vec.dot v k < 0

theorem upward {l : List (Vec T)} (h : AllUp A C l) : Upward C.vertical l := by
  intro k hk
  obtain ⟨h1, h2⟩ := h k hk
  rw [ccw_eq, ccwExact_collinear] at h1
  exact ⟨h1, (Vec.orientation_same A).1 h2⟩

theorem downward {l : List (Vec T)} (h : AllDown A C l) : Downward C.vertical l := by
  intro k hk
  obtain ⟨h1, -, h2⟩ := h k hk
  rw [ccw_eq, ccwExact_collinear] at h1
  exact ⟨h1, h2⟩

/-- The contour of a component consists of connections for the half edges at the bottom and of connections for the half edges at the
top. The connections next to a connection are the ones next to it on the perimeter. -/
theorem contour (hS : Closed dbg S) (hv : v ≠ 0) (h : BuiltCollapsed A dbg S v C) (dbg' : Bool) :
    ∃ ds N, (∀ n ≥ N, Collapsed.components A dbg' C n = some (.ok ds)) ∧ ∀ d ∈ ds,
      perimeterContour A dbg' C d = .ok (d.bottomEdges.map (fun x => ⟨x, false⟩) ++ d.topEdges.map fun x => ⟨x, true⟩) ∧
      ∀ x y, Follows d.perimeter x y → nextInPerimeter A dbg' C d x = .ok ⟨y, decide (y ∈ d.topEdges)⟩ ∧
        previousInPerimeter A dbg' C d y = .ok ⟨x, decide (x ∈ d.topEdges)⟩ := by
  have hs := h.sane hS.shut hv
  obtain ⟨ds, cs, h1, h2, h3, h4, N, h5⟩ := decompose_built (hs.good.ready hs.upright) A dbg'
  refine ⟨ds, N, fun n hn => (h5 n hn).2, fun d hd => ?_⟩
  obtain ⟨mu, lu, md, ld, b⟩ := h4 d hd
  obtain ⟨_, _, _, _, _, _, F⟩ := hs.good.frame hs.upright b
  obtain ⟨su, sd⟩ := F.both hs.good hs.upright
  refine ⟨F.signs.contour, fun x y hxy => ?_⟩
  obtain ⟨k1, k2⟩ := next_follows F.nodup sd.gaps.ne_nil su.gaps.ne_nil hxy
  exact ⟨F.signs.next_ok A dbg' k1, F.signs.previous_ok A dbg' k2⟩

/-- For each connection, its vertical parts and its horizontal part can be computed. At the left end, the vertical connections point
down, at the right end they point up. At the bottom, the perimeter goes down at the left, then along the half edge from left to right,
then up at the right. At the top, the perimeter goes up at the right, then back along the negative of the half edge, then down at the
left. -/
theorem connection (hS : Closed dbg S) (hv : v ≠ 0) (h : BuiltCollapsed A dbg S v C) (dbg' : Bool) :
    ∃ ds N, (∀ n ≥ N, Collapsed.components A dbg' C n = some (.ok ds)) ∧ ∀ d ∈ ds,
      (∀ x ∈ d.bottomEdges, ∃ l r, Downward v l ∧ Upward v r ∧ 0 < Vec.cross (C.fromHalfEdge x) v ∧
        horizontal A dbg' C ⟨x, false⟩ = .ok (C.fromHalfEdge x) ∧
        ∀ n ≥ N, left A dbg' C n d ⟨x, false⟩ = pure l ∧ right A dbg' C n d ⟨x, false⟩ = pure r ∧
          connectionPerimeter A dbg' C n d ⟨x, false⟩ = pure (l ++ [C.fromHalfEdge x] ++ r)) ∧
      ∀ x ∈ d.topEdges, ∃ l r, Downward v l ∧ Upward v r ∧ 0 < Vec.cross (C.fromHalfEdge (neg x)) v ∧
        horizontal A dbg' C ⟨x, true⟩ = .ok (C.fromHalfEdge (neg x)) ∧
        ∀ n ≥ N, left A dbg' C n d ⟨x, true⟩ = pure l ∧ right A dbg' C n d ⟨x, true⟩ = pure r ∧
          connectionPerimeter A dbg' C n d ⟨x, true⟩ = pure (r ++ [-C.fromHalfEdge (neg x)] ++ l) := by
  have hs := h.sane hS.shut hv
  obtain ⟨ds, cs, h1, h2, h3, h4, N, h5⟩ := decompose_built (hs.good.ready hs.upright) A dbg'
  rw [← hs.vertical]
  refine ⟨ds, max N C.tri.size, fun n hn => (h5 n (by omega)).2, fun d hd => ?_⟩
  obtain ⟨mu, lu, md, ld, b⟩ := h4 d hd
  obtain ⟨_, _, _, _, _, _, F⟩ := hs.good.frame hs.upright b
  obtain ⟨-, p1, p2⟩ := F.perimeter_ok hs.good hs.upright (h.vertexes hS.shut hv) le_rfl A dbg'
  constructor
  · intro x hx
    obtain ⟨l, m, b1, b2⟩ := p1 x hx
    have hp := F.signs.bottom x hx
    obtain ⟨q1, q2⟩ := perimeter_bottom b1 b2 hp
    refine ⟨l, m, downward (by simpa using b1.dir), upward (by simpa using b2.dir), hp, q2, fun n hn => ?_⟩
    exact ⟨(left_mono (by omega) _).ok b1.left, (right_mono (by omega) _).ok b2.right, (connectionPerimeter_mono (by omega) _).ok q1⟩
  · intro x hx
    obtain ⟨l, m, b1, b2⟩ := p2 x hx
    have hp : 0 < Vec.cross (C.vec (neg x)) C.vertical := by
      have := F.signs.top x hx
      have e : Vec.cross (C.vec (neg x)) C.vertical = -Vec.cross (C.vec x) C.vertical :=
        (hs.good.ready hs.upright).ok.odd x (F.neg_lt x (List.mem_append_right _ hx))
      linarith
    obtain ⟨q1, q2⟩ := perimeter_top b1 b2 hp
    refine ⟨m, l, downward (by simpa using b2.dir), upward (by simpa using b1.dir), hp, q2, fun n hn => ?_⟩
    exact ⟨(left_mono (by omega) _).ok b2.left, (right_mono (by omega) _).ok b1.right, (connectionPerimeter_mono (by omega) _).ok q1⟩

/-! ### Concrete cases -/

/-- A surface with collapsed edges. -/
example : Closed true flatEll ∧ steep ≠ 0 ∧ BuiltCollapsed (none : Option (Approx ℤ ℚ)) true flatEll steep ellAfter ∧
    ∃ e ∈ ellAfter.tri.halfEdges, ellAfter.cross e ≠ [] :=
  ⟨flatEll_closed, by decide, ellAfter_built, by decide +kernel⟩

end Verif.C126

namespace Verif.C127

open Verif Spec Tri FlatTri Vec Contour Examples Collapsed

variable {T : Type} [CommRing T] [LinearOrder T] [IsStrictOrderedRing T]
variable {K : Type*} [Field K] [LinearOrder K] [IsStrictOrderedRing K]
variable {A : Option (Approx T K)} {dbg : Bool} {S : FlatTri T} {v : Vec T} {C : Collapsed T}

/-- The perimeters of components can be computed without an error. Their vectors add up to zero. -/
theorem closed (hS : Closed dbg S) (hv : v ≠ 0) (h : BuiltCollapsed A dbg S v C) (dbg' : Bool) :
    ∃ ds N, (∀ n ≥ N, Collapsed.components A dbg' C n = some (.ok ds)) ∧ ∀ d ∈ ds,
      ∃ P, (∀ n ≥ N, perimeter A dbg' C n d = pure P) ∧ P.sum = 0 := by
  have hs := h.sane hS.shut hv
  obtain ⟨ds, cs, h1, h2, h3, h4, N, h5⟩ := decompose_built (hs.good.ready hs.upright) A dbg'
  refine ⟨ds, max N C.tri.size, fun n hn => (h5 n (by omega)).2, fun d hd => ?_⟩
  obtain ⟨mu, lu, md, ld, b⟩ := h4 d hd
  obtain ⟨P, ⟨p1, p2, -⟩, -⟩ := b.loop hs.good hs.upright (h.vertexes hS.shut hv) le_rfl A dbg'
  exact ⟨P, fun n hn => (perimeter_mono (by omega)).ok p1, p2⟩

/-- All the vectors of half edges at the bottom of components. -/
def horizontals (C : Collapsed T) (ds : List Component) : Multiset (Vec T) :=
  ((ds.flatMap fun d => d.bottomEdges.map C.fromHalfEdge : List (Vec T)) : Multiset (Vec T))

/-- When there is a unique large edge in each component, then the perimeters of all components consist of all the connections that have
been collapsed, each one exactly once, and of the half edges at the bottom, once with each sign. -/
theorem connections (hS : Closed dbg S) (hv : v ≠ 0) (h : BuiltCollapsed A dbg S v C) (hu : UniqueLargeEdges C.seen v) (dbg' : Bool) :
    ∃ ds N, ∃ P : Component → List (Vec T), (∀ n ≥ N, Collapsed.components A dbg' C n = some (.ok ds)) ∧
      (∀ d ∈ ds, ∀ n ≥ N, perimeter A dbg' C n d = pure (P d)) ∧
      (ds.flatMap P : Multiset (Vec T)) = collapsedConnections C + horizontals C ds + (horizontals C ds).map (- ·) := by
  have hs := h.sane hS.shut hv
  have hr := hs.good.ready hs.upright
  rw [← hs.vertical] at hu
  obtain ⟨ds, cs, h1, h2, h3, h4, N, h5⟩ := decompose_built hr A dbg'
  have key : ∀ d, ∃ P, d ∈ ds → perimeter A dbg' C C.tri.size d = pure P ∧
      (P : Multiset (Vec T)) = (d.halfEdges.flatMap C.cross : List (Vec T)) + (d.bottomEdges.map C.vec : List (Vec T)) +
          ((d.bottomEdges.map C.vec).map (- ·) : List (Vec T)) := by
    intro d
    by_cases hd : d ∈ ds
    · obtain ⟨mu, lu, md, ld, b⟩ := h4 d hd
      obtain ⟨P, ⟨p1, -, -⟩, p2⟩ := b.loop hs.good hs.upright (h.vertexes hS.shut hv) le_rfl A dbg'
      exact ⟨P, fun _ => ⟨p1, (p2 (uniqueLarge hr hu h2 (h1 ▸ List.mem_map_of_mem hd))).2⟩⟩
    · exact ⟨[], fun k => absurd k hd⟩
  choose P hP using key
  refine ⟨ds, max N C.tri.size, P, fun n hn => (h5 n (by omega)).2, fun d hd n hn => (perimeter_mono (by omega)).ok (hP d hd).1, ?_⟩
  have e1 : collapsedConnections C = ((ds.flatMap Component.halfEdges).flatMap C.cross : List (Vec T)) := by
    have := Collapsed.flatten_perm hr h2 h3
    rw [← h1] at this
    exact (Multiset.coe_eq_coe.2 (this.flatMap_right C.cross)).symm
  have e2 : ∀ es : List Component, (∀ d ∈ es, d ∈ ds) → ((es.flatMap P : List (Vec T)) : Multiset (Vec T)) =
      ((es.flatMap Component.halfEdges).flatMap C.cross : List (Vec T)) + horizontals C es + (horizontals C es).map (- ·) := by
    intro es hes
    induction es with
    | nil => rfl
    | cons d es ih =>
      have ih := ih fun x hx => hes x (List.mem_cons_of_mem _ hx)
      have hd := (hP d (hes d List.mem_cons_self)).2
      unfold horizontals at ih ⊢
      simp only [List.flatMap_cons, List.flatMap_append, ← Multiset.coe_add, Multiset.map_add, ih, hd, Multiset.map_coe]
      have : C.fromHalfEdge = C.vec := rfl
      rw [this]
      abel
  rw [e1]
  exact e2 ds fun _ hd => hd

/-- In this situation, each vector shows up as often as its negative. -/
theorem symmetric (hS : Closed dbg S) (hv : v ≠ 0) (h : BuiltCollapsed A dbg S v C) (hu : UniqueLargeEdges C.seen v) (dbg' : Bool) :
    ∃ ds N, ∃ P : Component → List (Vec T), (∀ n ≥ N, Collapsed.components A dbg' C n = some (.ok ds)) ∧
      (∀ d ∈ ds, ∀ n ≥ N, perimeter A dbg' C n d = pure (P d)) ∧
      ∀ x, (ds.flatMap P).count x = (ds.flatMap P).count (-x) := by
  obtain ⟨ds, N, P, h1, h2, h3⟩ := connections hS hv h hu dbg'
  refine ⟨ds, N, P, h1, h2, fun x => ?_⟩
  have hs := (h.sane hS.shut hv).sym
  have : ((ds.flatMap P : List (Vec T)) : Multiset (Vec T)).map (- ·) = (ds.flatMap P : List (Vec T)) := by
    rw [h3, Multiset.map_add, Multiset.map_add, hs, Multiset.map_map]
    simp only [Function.comp_def, neg_neg, Multiset.map_id']
    abel
  rw [← Multiset.coe_count, ← Multiset.coe_count]
  conv_rhs => rw [← this]
  exact (Multiset.count_map_eq_count' _ _ (_root_.neg_injective) x).symm

/-! ### Concrete cases -/

/-- A surface with unique large edges, and its connections that have been collapsed. -/
example : Closed true flatEll ∧ steep ≠ 0 ∧ BuiltCollapsed (none : Option (Approx ℤ ℚ)) true flatEll steep ellUnique ∧
    UniqueLargeEdges ellUnique.seen steep ∧ collapsedConnections ellUnique ≠ 0 :=
  ⟨flatEll_closed, by decide, ellUnique_built, C125.ellUnique_unique, by decide +kernel⟩

/-- The perimeter in this example. -/
example : (perimeter (none : Option (Approx ℤ ℚ)) true ellUnique 20 ⟨[2, 3, 5, 4, 1, 0], 4, [2, 1], [0, 3]⟩).run =
    some (.ok [⟨0, -1⟩, ⟨1, 1⟩, ⟨1, 2⟩, ⟨-1, -1⟩, ⟨1, 2⟩, ⟨0, 1⟩, ⟨-1, -2⟩, ⟨-1, -2⟩]) := by decide +kernel

end Verif.C127

namespace Verif.C128

open Verif Spec Tri FlatTri Vec Contour Examples Collapsed

variable {T : Type} [CommRing T] [LinearOrder T] [IsStrictOrderedRing T]
variable {K : Type*} [Field K] [LinearOrder K] [IsStrictOrderedRing K]
variable {A : Option (Approx T K)} {dbg : Bool} {S : FlatTri T} {v : Vec T} {C : Collapsed T}

theorem area_ok {d : Component} {n : ℕ} {P : List (Vec T)} (h1 : perimeter A dbg C n d = pure P) (h2 : P.sum = 0) (h3 : 0 ≤ Vec.area2 P) :
    componentArea2 A dbg C n d = pure (Vec.area2 P) ∧ componentArea A dbg C n d = pure (3 * Vec.area2 P) := by
  have : componentArea2 A dbg C n d = pure (Vec.area2 P) := by
    unfold componentArea2
    rw [h1, pure_bind]
    unfold polygonArea2
    rw [if_neg (by simp [h2]), if_neg (by simp [h3])]
    rfl
  refine ⟨this, ?_⟩
  unfold componentArea
  rw [this, pure_bind]

/-- The areas of components can be computed without an error. They are not negative. The function `area` returns three times the
value of `area2`. -/
theorem nonneg (hS : Closed dbg S) (hv : v ≠ 0) (h : BuiltCollapsed A dbg S v C) (dbg' : Bool) :
    ∃ ds N, (∀ n ≥ N, Collapsed.components A dbg' C n = some (.ok ds)) ∧ ∀ d ∈ ds, ∃ a : T, 0 ≤ a ∧
      ∀ n ≥ N, componentArea2 A dbg' C n d = pure a ∧ componentArea A dbg' C n d = pure (3 * a) := by
  have hs := h.sane hS.shut hv
  obtain ⟨ds, cs, h1, h2, h3, h4, N, h5⟩ := decompose_built (hs.good.ready hs.upright) A dbg'
  refine ⟨ds, max N C.tri.size, fun n hn => (h5 n (by omega)).2, fun d hd => ?_⟩
  obtain ⟨mu, lu, md, ld, b⟩ := h4 d hd
  obtain ⟨P, ⟨p1, p2, p3⟩, -⟩ := b.loop hs.good hs.upright (h.vertexes hS.shut hv) le_rfl A dbg'
  exact ⟨Vec.area2 P, p3, fun n hn => area_ok ((perimeter_mono (by omega)).ok p1) p2 p3⟩

/-- When there is a unique large edge in each component, then the areas of the components add up to the area of the original surface. -/
theorem areas (hS : Closed dbg S) (hv : v ≠ 0) (h : BuiltCollapsed A dbg S v C) (hu : UniqueLargeEdges C.seen v) (dbg' : Bool) :
    ∃ ds N, ∃ a : Component → T, (∀ n ≥ N, Collapsed.components A dbg' C n = some (.ok ds)) ∧
      (∀ d ∈ ds, ∀ n ≥ N, componentArea2 A dbg' C n d = pure (a d)) ∧ (ds.map a).sum = S.area2 := by
  classical
  have hs := h.sane hS.shut hv
  have hr := hs.good.ready hs.upright
  rw [← hs.vertical] at hu
  obtain ⟨ds, cs, h1, h2, h3, h4, N, h5⟩ := decompose_built hr A dbg'
  refine ⟨ds, max N C.tri.size, fun d => (d.halfEdges.map fun e => (if Chief C e then C.net.corner e else 0) + C.net.wedge e).sum,
    fun n hn => (h5 n (by omega)).2, fun d hd n hn => ?_, ?_⟩
  · obtain ⟨mu, lu, md, ld, b⟩ := h4 d hd
    obtain ⟨P, ⟨p1, p2, p3⟩, p4⟩ := b.loop hs.good hs.upright (h.vertexes hS.shut hv) le_rfl A dbg'
    rw [(area_ok ((perimeter_mono (show C.tri.size ≤ n by omega)).ok p1) p2 p3).1,
      (p4 (uniqueLarge hr hu h2 (h1 ▸ List.mem_map_of_mem hd))).1]
  · have hp := Collapsed.flatten_perm hr h2 h3
    have e0 : (ds.map fun d => (d.halfEdges.map fun e => (if Chief C e then C.net.corner e else 0) + C.net.wedge e).sum).sum =
        (cs.flatten.map fun e => (if Chief C e then C.net.corner e else 0) + C.net.wedge e).sum := by
      rw [← h1]
      clear h1 h4 h5
      induction ds with
      | nil => rfl
      | cons d ds ih => rw [List.map_cons, List.sum_cons, ih, List.map_cons, List.flatten_cons, List.map_append, List.sum_append]
    rw [e0, (hp.map _).sum_eq]
    have e1 : ((List.range C.tri.size).map fun e => (if Chief C e then C.net.corner e else 0) + C.net.wedge e).sum =
        ∑ z ∈ Finset.range C.tri.size, ((if Chief C z then C.net.corner z else 0) + C.net.wedge z) := rfl
    have e2 := hs.total
    have e3 : C.net.total = ∑ z ∈ Finset.range C.tri.size, (3 * C.net.wedge z + C.net.corner z) := rfl
    rw [e3, Finset.sum_add_distrib, hs.good.sum_chief hs.upright, ← Finset.mul_sum, ← mul_add] at e2
    have e4 := mul_left_cancel₀ (three_ne_zero) e2
    change ((List.range C.tri.size).map fun e => (if Chief C e then C.net.corner e else 0) + C.net.wedge e).sum = _
    rw [e1, Finset.sum_add_distrib, add_comm]
    exact e4

/-! ### Concrete cases -/

example : Closed true flatEll ∧ steep ≠ 0 ∧ BuiltCollapsed (none : Option (Approx ℤ ℚ)) true flatEll steep ellUnique ∧
    UniqueLargeEdges ellUnique.seen steep ∧ flatEll.area2 = 6 :=
  ⟨flatEll_closed, by decide, ellUnique_built, C125.ellUnique_unique, by decide +kernel⟩

/-- Without uniqueness, the areas do not need to add up to the area of the surface. -/
example : Collapsed.components (none : Option (Approx ℤ ℚ)) true ellAfter 20 =
      some (.ok [⟨[10, 11, 2, 3, 8, 9, 6, 7, 5, 4, 1, 0], 2, [6, 9], [0, 8]⟩]) ∧
    (componentArea2 (none : Option (Approx ℤ ℚ)) true ellAfter 20 ⟨[10, 11, 2, 3, 8, 9, 6, 7, 5, 4, 1, 0], 2, [6, 9], [0, 8]⟩).run = some (.ok 2) := by
  decide +kernel

end Verif.C128
