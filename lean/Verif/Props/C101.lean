import Verif.Lemmas.ContourIet
import Verif.Lemmas.FlatExamples

/-!
# C101: connections on the perimeters of contour components show up once with each sign

# C102: the areas of contour components add up to the area of the surface

# C103: going around the perimeter of a contour component

# C104: contours define an interval exchange transformation
-/

namespace Verif.C101

open Verif Spec Tri FlatTri Vec Vertical Contour Examples

variable {T : Type} [CommRing T] [LinearOrder T] [IsStrictOrderedRing T]
variable {K : Type*} [Field K] [LinearOrder K] [IsStrictOrderedRing K]

/-- When there is a unique large edge in each component, then no half edge shows up twice in the perimeters of the components, and each
half edge that shows up, also shows up with the opposite sign in the same perimeter. -/
theorem signs (A : Option (Approx T K)) {dbg : Bool} {S : FlatTri T} (h : Closed dbg S) {v : Vec T} (hv : NoVertical S v)
    (hu : UniqueLargeEdges S v) (dbg' : Bool) : ∃ ds N, ∀ n ≥ N, decompose S A dbg' v n = some (.ok ds) ∧
      (ds.flatMap Component.perimeter).Nodup ∧ ∀ d ∈ ds, ∀ x ∈ d.perimeter, neg x ∈ d.perimeter := by
  obtain ⟨ds, cs, h1, h2, -, h4, N, h5⟩ := decompose_built (ready h.shut hv) A dbg'
  refine ⟨ds, N, fun n hn => ⟨(h5 n hn).2, ?_, fun d hd x hx => ?_⟩⟩
  · rw [List.nodup_flatMap]
    refine ⟨fun d hd => ?_, ?_⟩
    · obtain ⟨mu, lu, md, ld, b⟩ := h4 d hd
      exact b.nodup (ready h.shut hv)
    · have hp := h2.pair
      rw [← h1, List.pairwise_map] at hp
      refine List.Pairwise.imp_of_mem (fun {c d} hc hd hcd x hx hx' => ?_) hp
      obtain ⟨mu, lu, md, ld, b⟩ := h4 c hc
      obtain ⟨mu', lu', md', ld', b'⟩ := h4 d hd
      have m1 := b.perimeter_sub (ready h.shut hv) hx
      exact hv x (mem_halfEdges.2 (b.part.lt x m1)) (hcd x m1 (b'.perimeter_sub (ready h.shut hv) hx'))
  · obtain ⟨mu, lu, md, ld, b⟩ := h4 d hd
    exact b.neg_perimeter (ready h.shut hv) (uniqueLarge (ready h.shut hv) hu h2 (h1 ▸ List.mem_map_of_mem hd)) hx

end Verif.C101

namespace Verif.C102

open Verif Spec Tri FlatTri Vec Vertical Contour Examples

variable {T : Type} [CommRing T] [LinearOrder T] [IsStrictOrderedRing T]
variable {K : Type*} [Field K] [LinearOrder K] [IsStrictOrderedRing K]

theorem sum_map_flatten {f : HE → T} (l : List (List HE)) : (l.map fun c => (c.map f).sum).sum = (l.flatten.map f).sum := by
  induction l with
  | nil => rfl
  | cons c l ih => simp [ih]

/-- When there is a unique large edge in each component, then the areas of the perimeters add up to the area of the surface. -/
theorem areas (A : Option (Approx T K)) {dbg : Bool} {S : FlatTri T} (h : Closed dbg S) {v : Vec T} (hv : NoVertical S v)
    (hu : UniqueLargeEdges S v) (dbg' : Bool) : ∃ ds N, ∀ n ≥ N, decompose S A dbg' v n = some (.ok ds) ∧
      (ds.map (Contour.area2 S)).sum = S.area2 := by
  classical
  obtain ⟨ds, cs, h1, h2, h3, h4, N, h5⟩ := decompose_built (ready h.shut hv) A dbg'
  refine ⟨ds, N, fun n hn => ⟨(h5 n hn).2, ?_⟩⟩
  have e1 : ds.map (Contour.area2 S) = cs.map fun c => (c.map fun e => if Built.chief S v e then S.faceArea e else 0).sum := by
    rw [← h1, List.map_map]
    refine List.map_congr_left fun d hd => ?_
    obtain ⟨mu, lu, md, ld, b⟩ := h4 d hd
    exact b.area_sum h.shut hv (uniqueLarge (ready h.shut hv) hu h2 (h1 ▸ List.mem_map_of_mem hd))
  rw [e1, sum_map_flatten, sum_chief h.shut hv]
  have hp : cs.flatten.Perm (List.range S.tri.size) := by
    rw [List.perm_ext_iff_of_nodup _ List.nodup_range]
    · intro x
      rw [List.mem_flatten, List.mem_range]
      exact ⟨fun ⟨c, hc, hx⟩ => (Components.part (ready h.shut hv) h2 hc).lt x hx, fun hx => h3 x hx⟩
    · rw [List.nodup_flatten]
      refine ⟨fun c hc => (h2.comp c hc).1, List.Pairwise.imp_of_mem (fun {c d} hc hd hcd x hx hx' => ?_) h2.pair⟩
      exact hv x (mem_halfEdges.2 ((Components.part (ready h.shut hv) h2 hc).lt x hx)) (hcd x hx hx')
  rw [(hp.map _).sum_eq]
  rfl

end Verif.C102

namespace Verif.C103

open Verif Spec Tri FlatTri Vec Vertical Contour Examples

variable {T : Type} [CommRing T] [LinearOrder T] [IsStrictOrderedRing T]
variable {K : Type*} [Field K] [LinearOrder K] [IsStrictOrderedRing K]

/-- `nextInPerimeter` and `previousInPerimeter` go around the perimeter, for other half edges there is an error. -/
theorem around (A : Option (Approx T K)) {dbg : Bool} {S : FlatTri T} (h : Closed dbg S) {v : Vec T} (hv : NoVertical S v)
    (dbg' : Bool) : ∃ ds N, ∀ n ≥ N, decompose S A dbg' v n = some (.ok ds) ∧ ∀ d ∈ ds,
      (∀ x y, Follows d.perimeter x y → d.nextInPerimeter x = .ok y ∧ d.previousInPerimeter y = .ok x) ∧
      ∀ x, x ∉ d.perimeter → d.nextInPerimeter x = .error .logicError ∧ d.previousInPerimeter x = .error .logicError := by
  obtain ⟨ds, cs, h1, -, -, h4, N, h5⟩ := decompose_built (ready h.shut hv) A dbg'
  refine ⟨ds, N, fun n hn => ⟨(h5 n hn).2, fun d hd => ?_⟩⟩
  obtain ⟨mu, lu, md, ld, b⟩ := h4 d hd
  have hb : d.bottomEdges ≠ [] := by
    obtain ⟨a, ha, -⟩ := (b.bottom_runs h.shut hv).1.start
    intro hx; rw [hx] at ha; cases ha
  have ht : d.topEdges ≠ [] := by
    obtain ⟨a, ha, -⟩ := (b.top_runs h.shut hv).1.start
    intro hx; rw [hx] at ha; cases ha
  exact ⟨fun x y hf => next_follows (b.nodup (ready h.shut hv)) hb ht hf, fun x hx => next_error hb ht hx⟩

/-- Consecutive half edges on the perimeter meet at a vertex, i.e., the perimeter is a closed path. -/
theorem closed (A : Option (Approx T K)) {dbg : Bool} {S : FlatTri T} (h : Closed dbg S) {v : Vec T} (hv : NoVertical S v)
    (dbg' : Bool) : ∃ ds N, ∀ n ≥ N, decompose S A dbg' v n = some (.ok ds) ∧ ∀ d ∈ ds,
      (∀ x y, Follows d.perimeter x y → S.tri.source (neg x) = S.tri.source y) ∧ (d.perimeter.map S.vec).sum = 0 := by
  obtain ⟨ds, cs, h1, -, -, h4, N, h5⟩ := decompose_built (ready h.shut hv) A dbg'
  refine ⟨ds, N, fun n hn => ⟨(h5 n hn).2, fun d hd => ?_⟩⟩
  obtain ⟨mu, lu, md, ld, b⟩ := h4 d hd
  obtain ⟨⟨a, a1, a2⟩, ⟨z, z1, z2⟩, c1, c2⟩ := (b.bottom_runs h.shut hv).1
  obtain ⟨⟨a', a1', a2'⟩, ⟨z', z1', z2'⟩, c1', c2'⟩ := (b.top_runs h.shut hv).1
  have hb : d.bottomEdges ≠ [] := by intro hx; rw [hx] at a1; cases a1
  have ht : d.topEdges ≠ [] := by intro hx; rw [hx] at a1'; cases a1'
  rw [List.head?_eq_some_head hb] at a1
  rw [List.head?_eq_some_head ht] at a1'
  rw [List.getLast?_eq_some_getLast hb] at z1
  rw [List.getLast?_eq_some_getLast ht] at z1'
  cases a1; cases a1'; cases z1; cases z1'
  constructor
  · intro x y hf
    rcases follows_cases hb ht hf with ⟨rfl, rfl⟩ | ⟨rfl, rfl⟩ | ⟨i, hi, rfl, rfl⟩ | ⟨i, hi, rfl, rfl⟩
    · rw [z2, a2']
    · rw [z2', a2, neg_neg']
    · exact List.isChain_iff_getElem.1 c1 i hi
    · exact List.isChain_iff_getElem.1 c1' i hi
  · unfold Component.perimeter
    rw [List.map_append, List.sum_append, c2, c2', h.shut.flat.odd _ b.lt]
    simp

end Verif.C103

namespace Verif.C104

open Verif Spec Tri FlatTri Vec Vertical Contour Examples

variable {T : Type} [CommRing T] [LinearOrder T] [IsStrictOrderedRing T]
variable {K : Type*} [Field K] [LinearOrder K] [IsStrictOrderedRing K]

/-- The constructor accepts the large edge of a component when it is unique. The top and the bottom contour both go from one end of
the large edge to the other, from left to right, and consist of the same half edges. -/
theorem accepted (A : Option (Approx T K)) {dbg : Bool} {S : FlatTri T} (h : Closed dbg S) {v : Vec T} (hv : NoVertical S v)
    {e : HE} (he : e ∈ S.tri.halfEdges) (hl : IsLarge S v e) (hp : 0 < cross (S.vec e) v)
    (hu : ∀ y ∈ S.tri.halfEdges, Joined S v e y → IsLarge S v y → y = e ∨ y = neg e) (dbg' : Bool) :
    ∃ top bottom N, (∀ n ≥ N, iet S A dbg' v n e = some (.ok (top, bottom))) ∧ top.Perm bottom ∧ top.Nodup ∧
      RunsAlong S e top ∧ LeftToRight S v top ∧ RunsAlong S e bottom ∧ LeftToRight S v bottom := by
  rw [mem_halfEdges] at he
  have ht := transverse h.shut hv
  obtain ⟨cs, -, c2, c3⟩ := components_components h.shut.flat.tame (none : Option (Approx T ℚ)) v (n := S.tri.size + 1) (by omega)
  obtain ⟨c, hc, hec⟩ := c3 e he
  have hpart := Components.part (ready h.shut hv) c2 hc
  have huc : UniqueLarge S v c := by
    obtain ⟨-, s, s1, -, s3⟩ := c2.comp c hc
    have key : ∀ y ∈ c, IsLarge S v y → y = e ∨ y = neg e := by
      intro y hy hly
      refine hu y (mem_halfEdges.2 (hpart.lt y hy)) ?_ hly
      rw [joined_iff h.shut.flat.tame]
      refine (reach_symm h.shut.flat.tame ((joined_iff h.shut.flat.tame).1 ((s3 e).1 hec)) ?_).trans ((joined_iff h.shut.flat.tame).1 ((s3 y).1 hy))
      exact hv e (mem_halfEdges.2 he)
    intro x hx y hy hlx hly
    rcases key x hx hlx with rfl | rfl <;> rcases key y hy hly with rfl | rfl
    · exact .inl rfl
    · exact .inr rfl
    · exact .inr (neg_neg' _).symm
    · exact .inl rfl
  obtain ⟨mu, lu, md, ld, b⟩ := built_of_large h.shut hv hpart hec hl hp
  obtain ⟨h1, N, h2⟩ := iet_ok h.shut hv A dbg' b huc
  exact ⟨lu, _, N, h2, h1, (ht.nodup_tree b.up b.lt).2, tree_runs h.shut b.up b.lt, fun x hx => (b.mem_up (ready h.shut hv) hx).2,
    (b.bottom_runs h.shut hv).1, (b.bottom_runs h.shut hv).2⟩

/-! ### Concrete cases -/

theorem torus_unique : UniqueLargeEdges flatTorus ⟨1, 3⟩ := by
  have hF := IsFlat.flat (torus_reachable true) flatTorus_isFlat
  intro x hx y hy hj h1 h2
  clear hj
  rw [mem_halfEdges] at hx hy
  rw [← large_iff hF hx] at h1
  rw [← large_iff hF hy] at h2
  revert x y
  decide

example : Closed true flatTorus ∧ NoVertical flatTorus ⟨1, 3⟩ ∧ UniqueLargeEdges flatTorus ⟨1, 3⟩ ∧ 0 ∈ flatTorus.tri.halfEdges ∧
    IsLarge flatTorus ⟨1, 3⟩ 0 ∧ 0 < cross (flatTorus.vec 0) ⟨1, 3⟩ :=
  ⟨⟨torus_reachable true, flatTorus_isFlat, by decide⟩, by unfold NoVertical; decide, torus_unique, by decide,
    (large_iff (IsFlat.flat (torus_reachable true) flatTorus_isFlat) (by decide)).1 (by decide), by decide⟩

example : iet flatTorus (none : Option (Approx ℤ ℚ)) true ⟨1, 3⟩ 9 0 = some (.ok ([4, 3], [3, 4])) := by decide +kernel

example : Follows [3, 4, 2, 5] 5 3 := ⟨3, by decide, rfl, rfl⟩

/-- Without uniqueness, the half edges do not need to show up with both signs. -/
example : decompose flatEll (none : Option (Approx ℤ ℚ)) true ⟨1, 3⟩ 29 =
    some (.ok [⟨[12, 13, 8, 9, 2, 3, 14, 15, 6, 7, 5, 4, 16, 17, 10, 11, 1, 0], 2, [6, 15], [9, 14]⟩]) := by decide +kernel

end Verif.C104
