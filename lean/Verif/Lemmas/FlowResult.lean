import Verif.Lemmas.FlowMade

/-!
# The constructor of triangulations of flow components
-/

namespace Verif.FlowTriangulation

open Verif Vec Spec C13 FlatTri

variable {T : Type} [CommRing T] [LinearOrder T] [IsStrictOrderedRing T]
variable {K : Type*} [Field K] [LinearOrder K] [IsStrictOrderedRing K]

omit [LinearOrder T] [IsStrictOrderedRing T] in
theorem enclosed_append (l l' : List (Arc T)) : enclosed (l ++ l') = enclosed l + enclosed l' := by
  unfold enclosed
  rw [List.map_append, List.sum_append]

omit [LinearOrder T] [IsStrictOrderedRing T] in
theorem enclosed_bottom (v : Vec T) (h : HE → HE) (f : HE → Vec T) (p : Vec T) (cs : List HE) :
    enclosed (arcsC p (place v true h f p cs)) = shoelace p (cs.map f) := by
  induction cs generalizing p with
  | nil => rfl
  | cons c cs ih =>
    change cross p (p + f c) + enclosed (arcsC (p + f c) (place v true h f (p + f c) cs)) = _
    rw [ih]; rfl

theorem enclosed_top (v : Vec T) (h : HE → HE) (f : HE → Vec T) (p : Vec T) (cs : List HE) :
    enclosed (arcsC p (place v false h f p cs)) = -shoelace p (cs.map f) := by
  induction cs generalizing p with
  | nil => simp [enclosed, place, arcsC, shoelace]
  | cons c cs ih =>
    change cross (p + f c) p + enclosed (arcsC (p + f c) (place v false h f (p + f c) cs)) = _
    rw [ih, List.map_cons, shoelace_cons, cross_comm]; ring

theorem enclosed_perimeter {v : Vec T} {h : HE → HE} {f : HE → Vec T} {bs ts : List HE}
    (hc : (bs.map f).sum + (ts.map f).sum = 0) :
    enclosed (arcsC 0 (place v true h f 0 bs) ++ arcsC 0 (place v false h (fun c => -f c) 0 ts.reverse)) =
      Vec.area2 ((bs ++ ts).map f) := by
  have e1 : ts.reverse.map (fun c => -f c) = ((ts.map f).map (-·)).reverse := by
    rw [List.map_reverse, List.map_map]; rfl
  have e2 : (ts.map f).sum = -(bs.map f).sum := (neg_eq_of_add_eq_zero_right hc).symm
  rw [enclosed_append, enclosed_bottom, enclosed_top, e1, shoelace_reverse, area2_eq, List.map_append, shoelace_append, zero_add]
  have e3 := shoelace_shift (bs.map f).sum 0 (ts.map f)
  rw [add_zero, e2, cross_neg_right, cross_self, neg_zero, add_zero] at e3
  rw [e3, neg_neg]

omit [LinearOrder T] [IsStrictOrderedRing T] in
theorem place_valid_bottom {v : Vec T} {h : HE → HE} {f : HE → Vec T} {V : Vectors T} {p : Vec T} {cs : List HE}
    (hg : ∀ c ∈ cs, V.get (h c) = f c) : ∀ a ∈ arcsC p (place v true h f p cs), V.get a.he = a.q - a.p := by
  induction cs generalizing p with
  | nil => intro a ha; cases ha
  | cons c cs ih =>
    intro a ha
    rcases List.mem_cons.1 ha with rfl | ha
    · change V.get (h c) = p + f c - p
      rw [hg c (by simp)]; abel
    · exact ih (fun d hd => hg d (by simp [hd])) a ha

omit [LinearOrder T] [IsStrictOrderedRing T] in
theorem place_valid_top {v : Vec T} {h : HE → HE} {f : HE → Vec T} {V : Vectors T} {p : Vec T} {cs : List HE}
    (hg : ∀ c ∈ cs, V.get (h c) = f c) : ∀ a ∈ arcsC p (place v false h (fun c => -f c) p cs), V.get a.he = a.q - a.p := by
  induction cs generalizing p with
  | nil => intro a ha; cases ha
  | cons c cs ih =>
    intro a ha
    rcases List.mem_cons.1 ha with rfl | ha
    · change V.get (h c) = p - (p + -f c)
      rw [hg c (by simp)]; abel
    · exact ih (fun d hd => hg d (by simp [hd])) a ha

omit [LinearOrder T] [IsStrictOrderedRing T] in
theorem place_he (v : Vec T) (bottom : Bool) (h : HE → HE) (f : HE → Vec T) (p : Vec T) (cs : List HE) :
    (place v bottom h f p cs).map (fun a => a.v.halfEdge) = cs.map h := by
  induction cs generalizing p with
  | nil => rfl
  | cons c cs ih => simp only [place, List.map_cons, ih]

theorem chain_eq {N : Numbering T} {vec : HE → Vec T} {v : Vec T} {Bc Tc : List Connection}
    (hN : Numbered vec ((Bc ++ Tc).map Connection.key) N) (hnd : ((Bc ++ Tc).map Connection.key).Nodup)
    (hB : ∀ c ∈ Bc, c.kind ≠ .top) (hT : ∀ c ∈ Tc.head?, c.kind = .top)
    (hM : MonotonePolygon v ((Bc.map Connection.key).map vec) ((Tc.map Connection.key).reverse.map fun c => -vec c))
    {B U : List (Placed T)} {e l : Placed T}
    (eB : place v true (fun c => (N.toHalfEdge c).getD 0) vec 0 (Bc.map Connection.key) = B ++ [e])
    (eU : place v false (fun c => (N.toHalfEdge c).getD 0) (fun c => -vec c) 0 (Tc.map Connection.key).reverse = U ++ [l]) :
    chain N vec v (Bc ++ Tc) =
      .ok (origin.v :: (merge (fun a : Placed T => cross a.p v) (B ++ [e]) (U ++ [l])).map Placed.v) := by
  have zero : cross (0 : Vec T) v = 0 := by simp [cross]
  have hrB : ∀ c ∈ Bc, 0 ≤ cross (vec c.key) v := fun c hc =>
    hM.right _ (List.mem_append_left _ (List.mem_map_of_mem (List.mem_map_of_mem hc)))
  have hrU : ∀ c ∈ Tc, 0 ≤ cross (-vec c.key) v := fun c hc =>
    hM.right _ (List.mem_append_right _ (List.mem_map.2 ⟨c.key, List.mem_reverse.2 (List.mem_map_of_mem hc), rfl⟩))
  have b1 := bottomChain_eq (N := N) (vec := vec) (p := 0) hB hT zero.ge hrB
  rw [eB, zero] at b1
  have hsome : ∀ c ∈ Bc ++ Tc, N.toHalfEdge c.key = some ((N.toHalfEdge c.key).getD 0) := by
    intro c hc
    obtain ⟨x, hx⟩ := Option.isSome_iff_exists.1 ((hN.known c.key).2 (List.mem_map_of_mem hc))
    rw [hx]; rfl
  have hlast : (Bc.getLast?.map fun c => (N.toHalfEdge c.key).getD 0) = some e.v.halfEdge := by
    have h1 := congrArg List.getLast? (place_he v true (fun c => (N.toHalfEdge c).getD 0) vec 0 (Bc.map Connection.key))
    rw [eB, List.map_append, List.map_singleton, List.getLast?_concat, List.map_map, List.getLast?_map] at h1
    exact h1.symm
  obtain ⟨z, hz1, hz2⟩ := Option.map_eq_some_iff.1 hlast
  have hzm : z ∈ Bc := List.mem_of_getLast? hz1
  have t1 := topChain_eq (N := N) (vec := vec) (v := v) (g := e.v.halfEdge) (U := Tc.reverse) (B := Bc.reverse) (p := 0)
    (by
      intro c hc hx
      rw [List.mem_reverse] at hc
      rw [← hz2] at hx
      have h1 := hsome c (List.mem_append_right _ hc)
      have h2 := hsome z (List.mem_append_left _ hzm)
      rw [← hx] at h2
      have h3 := hN.inj _ _ _ h1 h2
      rw [List.map_append] at hnd
      exact (List.nodup_append.1 hnd).2.2 z.key (List.mem_map_of_mem hzm) c.key (List.mem_map_of_mem hc) h3.symm)
    (by
      intro c hc
      rw [List.head?_reverse, hz1] at hc
      cases hc
      exact hz2) zero.ge
    (by
      intro c hc
      rw [List.mem_reverse] at hc
      have := hrU c hc
      rw [cross_neg_left] at this
      linarith)
  rw [List.map_reverse, eU, zero] at t1
  unfold chain
  have m1 : Vertex.make (0 : T) true sentinel = .ok origin.v := by
    unfold Vertex.make
    rw [if_pos (le_refl _)]; rfl
  have hl2 : (((origin : Placed T).v :: (B ++ [e]).map Placed.v).getLast?.map Vertex.halfEdge).getD 0 = e.v.halfEdge := by
    rw [← List.map_cons, ← List.cons_append, List.map_append, List.map_singleton, List.getLast?_concat]; rfl
  simp only [m1, b1, bind, Except.bind, hl2, List.reverse_append, t1, pure, Except.pure]
  congr 1
  have hx : ∀ a ∈ (origin : Placed T) :: (B ++ [e]) ++ (U ++ [l]), a.v.x = cross a.p v := by
    intro a ha
    rcases List.mem_append.1 ha with ha | ha
    · rcases List.mem_cons.1 ha with rfl | ha
      · exact zero.symm
      · rw [← eB] at ha; exact (place_mem _ _ _ _ ha).2.1
    · rw [← eU] at ha; exact (place_mem _ _ _ _ ha).2.1
  have e1 : (origin : Placed T).v :: List.map Placed.v (B ++ [e]) ++ List.map Placed.v (U ++ [l]) =
      ((origin : Placed T) :: (B ++ [e]) ++ (U ++ [l])).map Placed.v := by
    simp only [List.map_append, List.map_cons]
  rw [e1, ← List.map_insertionSort (fun a b : Placed T => cross a.p v ≤ cross b.p v) (fun a b : Vertex T => a.x ≤ b.x) Placed.v _
    (fun a ha b hb => by rw [hx a ha, hx b hb])]
  have sB := place_sorted v true (fun c => (N.toHalfEdge c).getD 0) vec (p := 0) (cs := Bc.map Connection.key) (by
    intro c hc
    obtain ⟨d, hd, rfl⟩ := List.mem_map.1 hc
    exact hrB d hd)
  have sU := place_sorted v false (fun c => (N.toHalfEdge c).getD 0) (fun c => -vec c) (p := 0)
    (cs := (Tc.map Connection.key).reverse) (by
    intro c hc
    obtain ⟨d, hd, rfl⟩ := List.mem_map.1 (List.mem_reverse.1 hc)
    exact hrU d hd)
  rw [eB] at sB
  rw [eU] at sU
  rw [List.cons_append, List.insertionSort_cons, insertionSort_append _ sB.1 sU.1]
  have h0 : ∀ a ∈ merge (fun a : Placed T => cross a.p v) (B ++ [e]) (U ++ [l]), cross (0 : Vec T) v ≤ cross a.p v := by
    intro a ha
    rw [(merge_perm _ _ _).mem_iff] at ha
    rcases List.mem_append.1 ha with ha | ha
    · exact sB.2 a ha
    · exact sU.2 a ha
  cases hm : merge (fun a : Placed T => cross a.p v) (B ++ [e]) (U ++ [l]) with
  | nil => rfl
  | cons a m =>
    have ha : cross (origin : Placed T).p v ≤ cross a.p v := h0 a (by rw [hm]; simp)
    rw [List.orderedInsert_cons, if_pos ha]
    rfl

/-- More about the numbers of the half edges in the triangulation. -/
structure Layout (perimeter : List HE) (N : Numbering T) (R : Result T) : Prop where
  toHalfEdge : R.toHalfEdge = N.toHalfEdge
  toConnection : R.toConnection = N.toConnection
  halfEdges : R.triangulation.tri.halfEdges = List.range (N.vectors.size + 2 * (perimeter.length - 3))

theorem make_spec (A : Option (Approx T K)) (dbg : Bool) {vec : HE → Vec T} (hodd : ∀ c, vec (neg c) = -vec c) {v : Vec T}
    {Bc Tc : List Connection} (hnd : ((Bc ++ Tc).map Connection.key).Nodup)
    (hB : ∀ c ∈ Bc, c.kind ≠ .top) (hT : ∀ c ∈ Tc.head?, c.kind = .top)
    (hM : MonotonePolygon v ((Bc.map Connection.key).map vec) ((Tc.map Connection.key).reverse.map fun c => -vec c)) :
    ∃ R N, make A dbg vec v (Bc ++ Tc) = .ok R ∧ R.triangulation.tri.Reachable dbg ∧
      Triangulates vec ((Bc ++ Tc).map Connection.key) R ∧ Numbered vec ((Bc ++ Tc).map Connection.key) N ∧
      Layout ((Bc ++ Tc).map Connection.key) N R ∧ C11.SimpleBoundary R.triangulation.tri := by
  obtain ⟨N, n1, hN⟩ := numbering_spec dbg hodd hnd
  obtain ⟨B, U, e, l, eB, eU, hR, hne, ho⟩ := polygon_rest (h := fun c => (N.toHalfEdge c).getD 0) hM
  have hc := chain_eq hN hnd hB hT hM eB eU
  have hsome : ∀ c ∈ (Bc ++ Tc).map Connection.key, N.toHalfEdge c = some ((N.toHalfEdge c).getD 0) := by
    intro c hc
    obtain ⟨x, hx⟩ := Option.isSome_iff_exists.1 ((hN.known c).2 hc)
    rw [hx]; rfl
  have hmB : ∀ c ∈ Bc.map Connection.key, c ∈ (Bc ++ Tc).map Connection.key := fun c hc => by
    rw [List.map_append]; exact List.mem_append_left _ hc
  have hmT : ∀ c ∈ (Tc.map Connection.key).reverse, c ∈ (Bc ++ Tc).map Connection.key := fun c hc => by
    rw [List.map_append]; exact List.mem_append_right _ (List.mem_reverse.1 hc)
  have hhe : (arcsC 0 (B ++ [e]) ++ arcsC 0 (U ++ [l])).map Arc.he = (Bc.map Connection.key ++ (Tc.map Connection.key).reverse).map
      fun c => (N.toHalfEdge c).getD 0 := by
    rw [List.map_append, ← eB, ← eU, place_arcs, place_arcs, List.map_append]
  have hmem : ∀ x, x ∈ (arcsC 0 (B ++ [e]) ++ arcsC 0 (U ++ [l])).map Arc.he ↔
      ∃ c ∈ (Bc ++ Tc).map Connection.key, N.toHalfEdge c = some x := by
    intro x
    rw [hhe, List.mem_map]
    constructor
    · rintro ⟨c, hc, rfl⟩
      have hc' : c ∈ (Bc ++ Tc).map Connection.key := by
        rcases List.mem_append.1 hc with hc | hc
        · exact hmB c hc
        · exact hmT c hc
      exact ⟨c, hc', hsome c hc'⟩
    · rintro ⟨c, hc, hx⟩
      refine ⟨c, ?_, by rw [hx]; rfl⟩
      rw [List.map_append] at hc
      rcases List.mem_append.1 hc with hc | hc
      · exact List.mem_append_left _ hc
      · exact List.mem_append_right _ (List.mem_reverse.2 hc)
  have hv : Valid N.vectors (arcsC 0 (B ++ [e]) ++ arcsC 0 (U ++ [l])) := by
    refine ⟨hN.ok, ?_, ?_⟩
    · intro a ha
      obtain ⟨c, -, hc⟩ := (hmem a.he).1 (List.mem_map_of_mem ha)
      exact hN.lt c _ hc
    · intro a ha
      rcases List.mem_append.1 ha with ha | ha
      · rw [← eB] at ha
        exact place_valid_bottom (fun c hc => hN.get c _ (hsome c (hmB c hc))) a ha
      · rw [← eU] at ha
        exact place_valid_top (fun c hc => hN.get c _ (hsome c (hmT c hc))) a ha
  obtain ⟨st', s1, s2⟩ := triangulate_spec A dbg hM.direction (st := ⟨N.vectors, []⟩) hR hne ho hv
  obtain ⟨F, hF⟩ := s2.filled hv
  have hndA : ((arcsC 0 (B ++ [e]) ++ arcsC 0 (U ++ [l])).map Arc.he).Nodup := by
    rw [hhe]
    have h1 : (Bc.map Connection.key ++ (Tc.map Connection.key).reverse).Nodup := by
      have : (Bc.map Connection.key ++ (Tc.map Connection.key).reverse).Perm ((Bc ++ Tc).map Connection.key) := by
        rw [List.map_append]
        exact (List.reverse_perm _).append_left _
      exact this.nodup_iff.2 hnd
    refine List.Nodup.map_on (fun c hc d hd hcd => ?_) h1
    have hc' : c ∈ (Bc ++ Tc).map Connection.key := by
      rcases List.mem_append.1 hc with hc | hc
      · exact hmB c hc
      · exact hmT c hc
    have hd' : d ∈ (Bc ++ Tc).map Connection.key := by
      rcases List.mem_append.1 hd with hd | hd
      · exact hmB d hd
      · exact hmT d hd
    refine hN.inj c d _ (hsome c hc') ?_
    rw [hcd]; exact hsome d hd'
  have hall : ∀ x, (x ∈ (arcsC 0 (B ++ [e]) ++ arcsC 0 (U ++ [l])).map Arc.he ∨
      neg x ∈ (arcsC 0 (B ++ [e]) ++ arcsC 0 (U ++ [l])).map Arc.he) ↔ x < N.vectors.size := by
    intro x
    rw [hmem, hmem]
    constructor
    · rintro (⟨c, -, hc⟩ | ⟨c, -, hc⟩)
      · exact hN.lt c _ hc
      · exact (neg_lt' hN.ok.even x).1 (hN.lt c _ hc)
    · intro hx
      obtain ⟨c, hc | hc⟩ := hN.cover x hx
      · exact .inl ⟨c, (hN.known c).1 (by rw [hc]; rfl), hc⟩
      · exact .inr ⟨c, (hN.known c).1 (by rw [hc]; rfl), hc⟩
  obtain ⟨C, S, c1, c2, c3, c4, c5, c6, c7, c8, c9⟩ := hF.surface A dbg rfl hN.ok hndA hall
  have hlen : (arcsC 0 (B ++ [e]) ++ arcsC 0 (U ++ [l])).length = ((Bc ++ Tc).map Connection.key).length := by
    have := congrArg List.length hhe
    simpa using this
  have hFlen := hF.length
  rw [hlen] at hFlen
  have hFpos := hF.pos
  have hsize : st'.vectors.size = N.vectors.size + 2 * (((Bc ++ Tc).map Connection.key).length - 3) := by
    have := hF.size
    dsimp only at this
    rw [this]; omega
  have hused : ∀ x, x ∈ halfEdgesOf F ↔ (∃ c ∈ (Bc ++ Tc).map Connection.key, N.toHalfEdge c = some x) ∨
      N.vectors.size ≤ x ∧ x < st'.vectors.size := by
    intro x
    rw [hF.perm.mem_iff, List.mem_append, List.mem_range'_1, hmem, hF.size]
  have hbd : ∀ x ∈ S.tri.halfEdges, S.tri.boundary x = true ↔
      ∃ c ∈ (Bc ++ Tc).map Connection.key, neg c ∉ (Bc ++ Tc).map Connection.key ∧ N.toHalfEdge c = some (neg x) := by
    intro x hx
    have hx' := hx
    rw [c6, List.mem_range] at hx'
    rw [c7 x hx, hused]
    constructor
    · intro hn
      push Not at hn
      have hlt : x < N.vectors.size := by
        by_contra hge
        exact absurd hx' (not_lt.2 (hn.2 (not_lt.1 hge)))
      obtain ⟨c, hc | hc⟩ := hN.cover x hlt
      · exact absurd hc (hn.1 c ((hN.known c).1 (by rw [hc]; rfl)))
      · refine ⟨c, (hN.known c).1 (by rw [hc]; rfl), fun hm => ?_, hc⟩
        have h1 := hN.back c _ _ hc (hsome _ hm)
        rw [neg_neg'] at h1
        have h2 := hsome _ hm
        rw [h1] at h2
        exact hn.1 _ hm h2
    · rintro ⟨c, hc, hn, hcx⟩ (⟨d, hd, hdx⟩ | ⟨h1, -⟩)
      · have := hN.neg c d _ hcx (by rw [neg_neg']; exact hdx)
        rw [this] at hd
        exact hn hd
      · exact absurd ((neg_lt' hN.ok.even x).1 (hN.lt c _ hcx)) (not_lt.2 h1)
  have hR' : make A dbg vec v (Bc ++ Tc) = .ok ⟨S, N.toHalfEdge, N.toConnection⟩ := by
    unfold make
    simp only [n1, hc, bind, Except.bind, s1, c1, c2]
    rw [if_neg]
    · rfl
    rintro ⟨-, hx⟩
    apply hx
    ext x
    rw [List.mem_toFinset, List.mem_filter, Finset.mem_image]
    constructor
    · rintro ⟨h1, h2⟩
      obtain ⟨c, hc, hn, hcx⟩ := (hbd x h1).1 h2
      obtain ⟨d, hd, rfl⟩ := List.mem_map.1 hc
      refine ⟨d, ?_, by rw [hcx]; simp [neg_neg']⟩
      rw [List.mem_toFinset, List.mem_filter]
      exact ⟨hd, by simpa using hn⟩
    · rintro ⟨d, hd, rfl⟩
      rw [List.mem_toFinset, List.mem_filter] at hd
      have hdm := List.mem_map_of_mem (f := Connection.key) hd.1
      have hdx := hsome _ hdm
      have hlt := hN.lt _ _ hdx
      have hm : neg ((N.toHalfEdge d.key).getD 0) ∈ S.tri.halfEdges := by
        rw [c6, List.mem_range, hsize]
        have := (neg_lt' hN.ok.even _).2 hlt
        omega
      refine ⟨hm, (hbd _ hm).2 ⟨d.key, hdm, ?_, by rw [neg_neg']; exact hdx⟩⟩
      simpa using hd.2
  refine ⟨⟨S, N.toHalfEdge, N.toConnection⟩, N, hR', c3, ?_, hN, ⟨rfl, rfl, by rw [← hsize]; exact c6⟩, c8⟩
  refine ⟨c4, ?_, ?_, fun c hc => ?_, fun c hc d hd hcd => ?_, fun c hc hn x hx => ?_, hbd, fun c x => ?_⟩
  · have h1 : (S.tri.halfEdges.filter fun x => !S.tri.boundary x).Perm (halfEdgesOf F) := by
      refine (List.perm_ext_iff_of_nodup ?_ (hF.proper hN.ok hndA hall).1).2 fun x => ?_
      · rw [c6]; exact List.nodup_range.filter _
      · rw [List.mem_filter]
        constructor
        · rintro ⟨h1, h2⟩
          by_contra hn
          rw [(c7 x h1).2 hn] at h2
          cases h2
        · intro hx
          have hm : x ∈ S.tri.halfEdges := by
            rw [c6, List.mem_range]
            have := ((hF.proper hN.ok hndA hall).2 x).1 (.inl hx)
            omega
          refine ⟨hm, ?_⟩
          have := (c7 x hm).not.2 (not_not.2 hx)
          simpa using this
    have h2 : (halfEdgesOf F).length = 3 * F.length := by
      unfold halfEdgesOf
      clear * -
      induction F with
      | nil => rfl
      | cons f F ih => rw [List.flatMap_cons, List.length_append, ih, List.length_cons]; simp; omega
    rw [h1.length_eq, h2]
    omega
  · dsimp only
    have hsum : ((Bc.map Connection.key).map vec).sum + ((Tc.map Connection.key).map vec).sum = 0 := by
      have h1 : ∀ cs : List HE, (cs.map fun c => -vec c).sum = -(cs.map vec).sum := by
        intro cs
        induction cs with
        | nil => simp
        | cons c cs ih => rw [List.map_cons, List.sum_cons, ih, List.map_cons, List.sum_cons]; abel
      rw [hM.closed, List.map_reverse, List.sum_reverse, h1]
      abel
    rw [c9, ← eB, ← eU, enclosed_perimeter hsum, ← List.map_append]
  · have hx := hsome c hc
    have hlt := hN.lt c _ hx
    have hm : (N.toHalfEdge c).getD 0 ∈ S.tri.halfEdges := by
      rw [c6, List.mem_range, hsize]; omega
    refine ⟨_, hm, hx, ?_, ?_⟩
    · have := (c7 _ hm).not.2 (not_not.2 ((hused _).2 (.inl ⟨c, hc, hx⟩)))
      simpa using this
    · dsimp only
      rw [c5, hF.get _ hlt]
      exact hN.get c _ hx
  · refine hN.inj c d _ (hsome c hc) ?_
    have h1 := hsome d hd
    dsimp only at hcd
    rw [← hcd, hsome c hc] at h1
    rw [← hcd]
    exact hsome c hc
  · dsimp only at hx ⊢
    rw [hsome _ hn, hN.back c _ _ hx (hsome _ hn)]
  · dsimp only
    rw [hN.inverse]
    exact ⟨fun hx => ⟨(hN.known c).1 (by rw [hx]; rfl), hx⟩, fun hx => hx.2⟩

end Verif.FlowTriangulation
