import Verif.Lemmas.FlowGlobal
import Verif.Lemmas.FlowComponent

/-!
# Triangulations of flow decompositions
-/

namespace Verif.FlowTriangulation

open Verif Vec Spec C13 FlatTri

variable {T : Type} [CommRing T] [LinearOrder T] [IsStrictOrderedRing T]
variable {K : Type*} [Field K] [LinearOrder K] [IsStrictOrderedRing K]

theorem piece_of_perimeter (A : Option (Approx T K)) (dbg : Bool) {vec : HE → Vec T} {v : Vec T} {bottom top : List Connection}
    (h : Perimeter vec v bottom top) (h4 : 4 ≤ (bottom ++ top).length) :
    ∃ R N, make A dbg vec v (bottom ++ top) = .ok R ∧ Piece dbg vec ((bottom ++ top).map Connection.key) N R := by
  obtain ⟨R, N, h1, h2, h3, h5, h6, -⟩ := make_spec A dbg h.odd h.nodup h.kindBottom h.kindTop (by
    have := h.polygon
    rw [List.map_map, ← List.map_reverse, List.map_map]
    exact this)
  exact ⟨R, N, h1, h5, h6, h3, h2, h.nodup, by simpa using h4⟩

variable {vec : HE → Vec T} {v : Vec T} {components : List (List Connection × List Connection)}

omit [IsStrictOrderedRing T] in
theorem pieces (dbg : Bool) (h : Decomposition vec v components) : Pieces dbg vec (components.map fun x => x.1 ++ x.2) := by
  refine ⟨h.nodup, h.closed, fun C hC => ?_⟩
  obtain ⟨x, hx, rfl⟩ := List.mem_map.1 hC
  exact h.four x hx

theorem mapM_make (A : Option (Approx T K)) (dbg : Bool) {components : List (List Connection × List Connection)}
    (hp : ∀ x ∈ components, Perimeter vec v x.1 x.2) (h4 : ∀ x ∈ components, 4 ≤ (x.1 ++ x.2).length) :
    ∃ L : List (List Connection × Result T), L.map Prod.fst = components.map (fun x => x.1 ++ x.2) ∧
      (components.map fun x => x.1 ++ x.2).mapM (make A dbg vec v) = .ok (L.map Prod.snd) ∧
      ∀ y ∈ L, make A dbg vec v y.1 = .ok y.2 ∧ ∃ N, Piece dbg vec (y.1.map Connection.key) N y.2 := by
  induction components with
  | nil => exact ⟨[], rfl, rfl, by simp⟩
  | cons x components ih =>
    obtain ⟨L, l1, l2, l3⟩ := ih (fun y hy => hp y (by simp [hy])) (fun y hy => h4 y (by simp [hy]))
    obtain ⟨R, N, h1, h2⟩ := piece_of_perimeter A dbg (hp x (by simp)) (h4 x (by simp))
    refine ⟨(x.1 ++ x.2, R) :: L, by simp [l1], ?_, ?_⟩
    · rw [List.map_cons, List.mapM_cons, h1]
      simp only [bind, Except.bind, l2]
      rfl
    · intro y hy
      rcases List.mem_cons.1 hy with rfl | hy
      · exact ⟨h1, N, h2⟩
      · exact l3 y hy

theorem count_eq (components : List (List Connection × List Connection)) :
    halfEdgeCount components = ((components.map fun x => x.1 ++ x.2).flatten.map Connection.key).length +
      ((components.map fun x => x.1 ++ x.2).map fun C => 2 * (C.length - 3)).sum := by
  unfold halfEdgeCount
  induction components with
  | nil => rfl
  | cons x components ih =>
    simp only [List.map_cons, List.sum_cons, List.flatten_cons, List.map_append, List.length_append, List.length_map] at ih ⊢
    rw [ih]
    omega

theorem sum_even {α : Type*} (l : List α) (f : α → ℕ) : (l.map fun x => 2 * f x).sum % 2 = 0 := by
  induction l with
  | nil => rfl
  | cons x l ih => rw [List.map_cons, List.sum_cons]; omega

/-- The triangulation that `triangulation` attempts to build. -/
theorem triangulation_run (A : Option (Approx T K)) (dbg : Bool) (h : Decomposition vec v components) :
    ∃ L : List (List Connection × Result T), L.map Prod.fst = components.map (fun x => x.1 ++ x.2) ∧
      (∀ y ∈ L, make A dbg vec v y.1 = .ok y.2 ∧ ∃ N, Piece dbg vec (y.1.map Connection.key) N y.2) ∧
      (halfEdgesOf (allFaces ((components.map fun x => x.1 ++ x.2).flatten.map Connection.key)
        ((components.map fun x => x.1 ++ x.2).flatten.map Connection.key).length L)).Perm (List.range (halfEdgeCount components)) ∧
      halfEdgeCount components % 2 = 0 ∧
      triangulation A dbg vec v (components.map fun x => x.1 ++ x.2) = (do
        let vectors := (writes ((components.map fun x => x.1 ++ x.2).flatten.map Connection.key)
          ((components.map fun x => x.1 ++ x.2).flatten.map Connection.key).length L).foldl
          (fun (m : HE → Option (Vec T)) p => Function.update m p.1 (some p.2)) fun _ => none
        let C ← Tri.ofFaces dbg (allFaces ((components.map fun x => x.1 ++ x.2).flatten.map Connection.key)
          ((components.map fun x => x.1 ++ x.2).flatten.map Connection.key).length L)
        if ∃ e ∈ C.halfEdges, (vectors e).isNone then throw .logicError
        FlatTri.ofFunction A dbg C fun e => (vectors e).getD 0) := by
  obtain ⟨L, l1, l2, l3⟩ := mapM_make A dbg h.perimeter h.four
  have hL : ∀ y ∈ L, ∃ N, Piece dbg vec (y.1.map Connection.key) N y.2 := fun y hy => (l3 y hy).2
  have ha := assemble_eq (pieces dbg h) (pre := []) (L := L) (by rw [l1]; rfl) hL fun _ => none
  have hperm := allFaces_perm ((components.map fun x => x.1 ++ x.2).flatten.map Connection.key)
    ((components.map fun x => x.1 ++ x.2).flatten.map Connection.key).length hL
  obtain ⟨g1, g2⟩ := globalHE_perm h.nodup h.closed
  rw [l1] at hperm
  have hsum : (L.map fun x => 2 * (x.1.length - 3)).sum = ((components.map fun x => x.1 ++ x.2).map fun C => 2 * (C.length - 3)).sum := by
    rw [← l1, List.map_map]; rfl
  refine ⟨L, l1, l3, ?_, ?_, ?_⟩
  · refine hperm.trans ((g1.append_right _).trans ?_)
    rw [hsum, count_eq, List.range_eq_range', List.range_eq_range']
    have := List.range'_append_1 (s := 0) (m := ((components.map fun x => x.1 ++ x.2).flatten.map Connection.key).length)
      (n := ((components.map fun x => x.1 ++ x.2).map fun C => 2 * (C.length - 3)).sum)
    rw [zero_add] at this
    rw [this]
  · rw [count_eq]
    have := sum_even (components.map fun x => x.1 ++ x.2) fun C => C.length - 3
    omega
  · unfold triangulation
    rw [l2]
    simp only [bind, Except.bind]
    simp only [List.map_nil, List.sum_nil, add_zero, List.length_nil] at ha
    rw [ha]

/-- The vectors on the triangulation are correct unless they have been overwritten. -/
theorem triangulation_ok (A : Option (Approx T K)) (dbg : Bool) (h : Decomposition vec v components)
    (hs : halfEdgeCount components ≤ sentinel ∨ ∀ x ∈ components, ∀ c ∈ (x.1 ++ x.2).map Connection.key,
      neg c ∈ (x.1 ++ x.2).map Connection.key) :
    ∃ S, triangulation A dbg vec v (components.map fun x => x.1 ++ x.2) = .ok S ∧ Closed dbg S ∧
      S.tri.halfEdges.length = halfEdgeCount components ∧
      S.area2 = (components.map fun x => FlowComponent.area2 vec (x.1 ++ x.2)).sum := by
  obtain ⟨L, l1, l3, hp, heven, hrun⟩ := triangulation_run A dbg h
  have hL : ∀ y ∈ L, ∃ N, Piece dbg vec (y.1.map Connection.key) N y.2 := fun y hy => (l3 y hy).2
  obtain ⟨g1, g2⟩ := globalHE_perm h.nodup h.closed
  generalize hk : (components.map fun x => x.1 ++ x.2).flatten.map Connection.key = keys at hp hrun g1 g2
  have hfst := allCorners_fst keys keys.length L
  have hnd : ((allCorners keys keys.length L).map Prod.fst).Nodup := by
    rw [hfst, hp.nodup_iff]; exact List.nodup_range
  have hval : ∀ p ∈ allCorners keys keys.length L, (writes keys keys.length L).foldl
      (fun (m : HE → Option (Vec T)) p => Function.update m p.1 (some p.2)) (fun _ => none) p.1 = some p.2 := by
    intro p hpm
    refine foldl_update (.inr ⟨p, (mem_writes keys keys.length hL p).2 (.inl hpm), rfl⟩) fun q hq hqp => ?_
    rcases (mem_writes keys keys.length hL q).1 hq with hq | ⟨hq1, y, hy, e, he, hb, hq2⟩
    · exact congrArg Prod.snd (List.inj_on_of_nodup_map hnd hq hpm hqp)
    · exfalso
      rcases hs with hs | hs
      · have hm : p.1 ∈ List.range (halfEdgeCount components) := by
          rw [← hp.mem_iff, ← hfst]
          exact List.mem_map_of_mem hpm
        rw [List.mem_range] at hm
        omega
      · obtain ⟨N, hP⟩ := hL y hy
        obtain ⟨c, hc, hn, -⟩ := (hP.triangulates.boundary e he).1 hb
        have hy1 : y.1 ∈ components.map fun x => x.1 ++ x.2 := by rw [← l1]; exact List.mem_map_of_mem hy
        obtain ⟨x, hx, hxy⟩ := List.mem_map.1 hy1
        rw [← hxy] at hc hn
        exact hn (hs x hx c hc)
  generalize (writes keys keys.length L).foldl (fun (m : HE → Option (Vec T)) p => Function.update m p.1 (some p.2))
    (fun _ => none) = m at hval hrun
  have hV : ∀ p ∈ allCorners keys keys.length L, (m p.1).getD 0 = p.2 := fun p hpm => by rw [hval p hpm]; rfl
  obtain ⟨t1, t2⟩ := allFaces_triangle keys keys.length hL (V := fun e => (m e).getD 0) hV
  have hfl : (L.map Prod.fst).flatten.map Connection.key = keys := by rw [l1, hk]
  have hodd : ∀ x < halfEdgeCount components, (m (neg x)).getD 0 = -(m x).getD 0 := by
    intro x hx
    rw [← List.mem_range, ← hp.mem_iff, ← hfst] at hx
    obtain ⟨p, hpm, rfl⟩ := List.mem_map.1 hx
    rw [hV p hpm]
    rcases allCorners_cases keys.length g2 hL hpm with ⟨c, hc, rfl⟩ | hn
    · rw [hfl] at hc
      have hnc : neg c ∈ keys := by rw [← hk]; exact h.closed c (by rw [hk]; exact hc)
      have := hV _ (allCorners_connection keys.length hL (c := neg c) (by rw [hfl]; exact hnc))
      dsimp only at this ⊢
      rw [globalHE_neg hc] at this
      rw [this]
      have hcm := hc
      rw [← hk] at hcm
      obtain ⟨d, hd, rfl⟩ := List.mem_map.1 hcm
      obtain ⟨C, hC, hdC⟩ := List.mem_flatten.1 hd
      obtain ⟨x, hx, rfl⟩ := List.mem_map.1 hC
      exact (h.perimeter x hx).odd _
    · exact hV _ hn
  obtain ⟨C, S, s1, s2, s3, s4, s5, s6, s7, s8, -, s9⟩ := surface_of_faces A dbg (V := fun e => (m e).getD 0) heven hp hodd (fun f hf => (t1 f hf).1) fun f hf => (t1 f hf).2
  refine ⟨S, ?_, ⟨s4, s5, Tri.hasBoundary_false.2 fun e he => Tri.boundary_false.1 (s8 e (Tri.mem_halfEdges.2 he))⟩, by rw [s7, List.length_range], ?_⟩
  · rw [hrun]
    simp only [bind, Except.bind, s1]
    rw [if_neg]
    · exact s2
    · rintro ⟨e, he, hn⟩
      rw [s3, ← hp.mem_iff, ← hfst] at he
      obtain ⟨p, hpm, rfl⟩ := List.mem_map.1 he
      rw [hval p hpm] at hn
      cases hn
  · rw [s9, t2]
    have e1 : (L.map fun x => x.2.triangulation.area2) = (L.map Prod.fst).map (FlowComponent.area2 vec) := by
      rw [List.map_map]
      refine List.map_congr_left fun y hy => ?_
      obtain ⟨N, hP⟩ := hL y hy
      rw [hP.triangulates.area, List.map_map]; rfl
    rw [e1, l1, List.map_map]; rfl

end Verif.FlowTriangulation
