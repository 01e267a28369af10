import Verif.Lemmas.FlowCollision

/-!
# C111: the triangulation of a decomposition

The full property: the triangulation of a flow decomposition is a closed surface that has the half edges on the perimeters of the
components and the half edges that cut the components into triangles; its area is the sum of the areas of the components. This is not
true when there are more than 806 half edges: all the half edges at the boundary of a component are written to the half edge with
number 404. If there is such a half edge in the surface, its vector is lost.
-/

namespace Verif.C111

open Verif Vec Spec FlowTriangulation Examples

variable {T : Type} [CommRing T] [LinearOrder T] [IsStrictOrderedRing T]
variable {K : Type*} [Field K] [LinearOrder K] [IsStrictOrderedRing K]

/-- The full property for a decomposition. -/
def Triangulable (A : Option (Approx T K)) (dbg : Bool) (vec : HE → Vec T) (v : Vec T)
    (components : List (List Connection × List Connection)) : Prop :=
  ∃ S, triangulation A dbg vec v (components.map fun x => x.1 ++ x.2) = .ok S ∧ Closed dbg S ∧
    S.tri.halfEdges.length = halfEdgeCount components ∧
    S.area2 = (components.map fun x => Vec.area2 ((x.1 ++ x.2).map fun c => vec c.key)).sum

/-- The property holds when there are not too many half edges and also when no component is glued to another component. -/
theorem triangulable_partial (A : Option (Approx T K)) (dbg : Bool) {vec : HE → Vec T} {v : Vec T}
    {components : List (List Connection × List Connection)} (h : Decomposition vec v components)
    (hs : halfEdgeCount components ≤ 806 ∨ ∀ x ∈ components, ∀ c ∈ (x.1 ++ x.2).map Connection.key,
      neg c ∈ (x.1 ++ x.2).map Connection.key) : Triangulable A dbg vec v components :=
  triangulation_ok A dbg h hs

theorem ring_make (dbg : Bool) : (make (none : Option (Approx ℤ ℚ)) dbg squaresVec ⟨0, 1⟩ ((ringSquare 133).1 ++ (ringSquare 133).2)).map
    (fun R => (R.triangulation.tri.size, R.triangulation.vec 6)) = .ok (8, ⟨-1, 1⟩) := by
  revert dbg; decide +kernel

/-- The vector of a half edge in the ring of squares is overwritten. -/
theorem ring_overwritten (dbg : Bool) : triangulation (none : Option (Approx ℤ ℚ)) dbg squaresVec ⟨0, 1⟩
    (ring.map fun x => x.1 ++ x.2) = .error .invalidArgument := by
  refine overwritten none dbg ring_decomposition fun L h1 h2 => ?_
  have hkl : ((ring.map fun x => x.1 ++ x.2).flatten.map Connection.key).length = 540 := by decide +kernel
  have hlt : ∀ c ∈ (ring.map fun x => x.1 ++ x.2).flatten.map Connection.key,
      globalHE ((ring.map fun x => x.1 ++ x.2).flatten.map Connection.key) c < 540 := by
    intro c hc
    have := (globalHE_perm ring_decomposition.nodup ring_decomposition.closed).1
    rw [← List.mem_range, ← hkl, ← this.mem_iff]
    exact List.mem_map_of_mem hc
  have hsub : ∀ y ∈ L, ∀ c ∈ y.1.map Connection.key, c ∈ (ring.map fun x => x.1 ++ x.2).flatten.map Connection.key := by
    intro y hy c hc
    obtain ⟨d, hd, rfl⟩ := List.mem_map.1 hc
    refine List.mem_map_of_mem (List.mem_flatten.2 ⟨y.1, ?_, hd⟩)
    rw [← h1]; exact List.mem_map_of_mem hy
  generalize (ring.map fun x => x.1 ++ x.2).flatten.map Connection.key = keys at hkl hlt hsub ⊢
  have hsplit : ∃ L' y z, L = L' ++ [y, z] ∧ L'.map Prod.fst = ((List.range 133).map ringSquare).map (fun x => x.1 ++ x.2) ∧
      y.1 = (ringSquare 133).1 ++ (ringSquare 133).2 ∧ z.1 = (ringSquare 134).1 ++ (ringSquare 134).2 := by
    have e : ring.map (fun x => x.1 ++ x.2) = ((List.range 133).map ringSquare).map (fun x => x.1 ++ x.2) ++
        [(ringSquare 133).1 ++ (ringSquare 133).2, (ringSquare 134).1 ++ (ringSquare 134).2] := by
      unfold ring
      rw [List.range_succ, List.range_succ]
      simp
    rw [e] at h1
    obtain ⟨L', M, rfl, e1, e2⟩ := List.map_eq_append_iff.1 h1
    obtain ⟨y, M, rfl, e3, e4⟩ := List.map_eq_cons_iff.1 e2
    obtain ⟨z, M, rfl, e5, e6⟩ := List.map_eq_cons_iff.1 e4
    rw [List.map_eq_nil_iff] at e6
    subst e6
    exact ⟨L', y, z, rfl, e1, e3, e5⟩
  obtain ⟨L', y, z, rfl, e1, e2, e3⟩ := hsplit
  have hsum : keys.length + (L'.map fun x => 2 * (x.1.length - 3)).sum = 806 := by
    have : (L'.map fun x => 2 * (x.1.length - 3)) = (L'.map Prod.fst).map fun C => 2 * (C.length - 3) := by rw [List.map_map]; rfl
    rw [this, e1, hkl]
    decide +kernel
  obtain ⟨y1, N, y2⟩ := h2 y (by simp)
  obtain ⟨z1, M, z2⟩ := h2 z (by simp)
  have hylen : y.1.length = 4 := by rw [e2]; rfl
  have hzlen : z.1.length = 4 := by rw [e3]; rfl
  have hys := y2.size
  have hzs := z2.size
  rw [List.length_map, hylen] at hys
  rw [List.length_map, hzlen] at hzs
  have hmk := ring_make dbg
  rw [← e2, y1] at hmk
  have hmk := Except.ok.inj hmk
  have hy8 : y.2.triangulation.tri.size = 8 := congrArg Prod.fst hmk
  have hyv : y.2.triangulation.vec 6 = ⟨-1, 1⟩ := congrArg Prod.snd hmk
  have hlast : ∃ w', (writes keys keys.length (L' ++ [y, z])).foldl
      (fun (m : HE → Option (Vec ℤ)) p => Function.update m p.1 (some p.2)) (fun _ => none) sentinel = some w' ∧ w'.x = 0 := by
    rw [writes_append, hsum]
    simp only [writes, List.append_nil]
    rw [List.foldl_append, List.foldl_append]
    have hside : ∀ c ∈ z.1.map Connection.key, neg c ∉ z.1.map Connection.key → (squaresVec c).x = 0 := by
      rw [e3]; decide +kernel
    have hfl := FlatTri.IsFlat.flat z2.reachable z2.triangulates.flat
    refine foldl_update_last (.inr ?_) ?_
    · obtain ⟨e, he1, he2, he3, he4⟩ := z2.triangulates.side 538 (by rw [e3]; decide +kernel)
      have hn : neg e ∈ z.2.triangulation.tri.halfEdges :=
        Tri.mem_halfEdges.2 ((neg_lt' hfl.coh.even e).2 (Tri.mem_halfEdges.1 he1))
      have hb := (z2.triangulates.boundary (neg e) hn).2 ⟨538, by rw [e3]; decide +kernel, by rw [e3]; decide +kernel,
        by rw [neg_neg']; exact he2⟩
      exact ⟨_, List.mem_map_of_mem hn, by dsimp only; rw [if_pos hb]⟩
    · intro p hp hps
      obtain ⟨e, he, rfl⟩ := List.mem_map.1 hp
      dsimp only at hps ⊢
      by_cases hb : z.2.triangulation.tri.boundary e = true
      · obtain ⟨c, hc, hn, hce⟩ := (z2.triangulates.boundary e he).1 hb
        obtain ⟨e', -, k2, -, k4⟩ := z2.triangulates.side c hc
        rw [hce] at k2
        cases k2
        have hv := hfl.odd e (Tri.mem_halfEdges.1 he)
        have hx := hside c hc hn
        rw [← k4, hv] at hx
        simpa using hx
      · exfalso
        rw [if_neg hb] at hps
        rcases (z2.not_boundary (Tri.mem_halfEdges.1 he)).1 (by simpa using hb) with ⟨c, hc, hce⟩ | hle
        · rw [z2.place_connection _ _ hce] at hps
          have := hlt c (hsub z (by simp) c hc)
          rw [hps] at this
          exact absurd this (by decide)
        · rw [z2.place_inner _ _ hle, hylen] at hps
          unfold sentinel at hps
          omega
  obtain ⟨w', hw1, hw2⟩ := hlast
  refine ⟨⟨-1, 1⟩, w', ?_, hw1, ?_⟩
  · rw [allCorners_append, hsum]
    refine List.mem_append_right _ ?_
    rw [allCorners]
    refine List.mem_append_left _ ?_
    obtain ⟨l, l1, l2, l3, l4, l5⟩ := y2.faces keys 806
    rw [l1]
    refine List.mem_map.2 ⟨6, (l4 6).2 ⟨by omega, (y2.not_boundary (by omega)).2 (.inr (by omega))⟩, ?_⟩
    rw [hyv, y2.place_inner _ _ (by omega)]
    refine Prod.ext ?_ rfl
    dsimp only
    unfold sentinel
    omega
  · rintro rfl
    exact absurd hw2 (by decide)

/-- The triangulation of a torus that decomposes into 135 cylinders cannot be constructed. -/
theorem not_triangulable : ∃ (vec : HE → Vec ℤ) (v : Vec ℤ) (components : List (List Connection × List Connection)),
    Decomposition vec v components ∧ ∀ dbg, ¬ Triangulable (none : Option (Approx ℤ ℚ)) dbg vec v components := by
  refine ⟨squaresVec, ⟨0, 1⟩, ring, ring_decomposition, ?_⟩
  rintro dbg ⟨S, hS, -⟩
  rw [ring_overwritten] at hS
  cases hS

/-- The hypotheses of the partial theorem hold for a torus and for two cylinders. -/
example : Decomposition flatTorus.vec ⟨1, 3⟩ oneComponent ∧ (∀ x ∈ oneComponent, ∀ c ∈ (x.1 ++ x.2).map Connection.key,
    neg c ∈ (x.1 ++ x.2).map Connection.key) ∧ halfEdgeCount oneComponent = 6 ∧
    Decomposition cylindersVec ⟨0, 1⟩ twoCylinders ∧ halfEdgeCount twoCylinders = 12 :=
  ⟨oneComponent_decomposition, by decide, rfl, twoCylinders_decomposition, rfl⟩

end Verif.C111
