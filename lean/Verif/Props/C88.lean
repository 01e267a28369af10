import Verif.Lemmas.SplitPoint
import Verif.Props.C30
import Verif.Props.C86

/-!
# C88: inserting a vertex on an edge keeps the points of the adjacent faces where they are
-/

namespace Verif.C88

open Verif Spec Tri FlatTri Examples Vec

variable {T : Type} [CommRing T] [LinearOrder T] [IsStrictOrderedRing T]
variable {K : Type} [Field K] [LinearOrder K] [IsStrictOrderedRing K]

/-- The faces on both sides of the edge. -/
theorem cuts {dbg : Bool} {S S' : FlatTri T} (h : Closed dbg S) (h' : Closed dbg S') {n f g k l a c d : HE} {v : Vec T}
    (hv : EndsOnEdge S n v) (hs : SubdividesEdge S S' n f g k l a c d v) :
    Cut S S' n f g (neg a) c d v ∧ Cut S S' (neg n) k l (neg c) a (neg n) (v - S.vec n) := by
  obtain ⟨⟨i1, i2, i3, i4, i5⟩, ⟨j1, j2, j3, j4, j5⟩, hE, ⟨-, -, a1, a2, a3⟩, ⟨-, -, b1, b2, b3⟩, ⟨-, -, c1, c2, c3⟩,
    ⟨-, -, d1, d2, d3⟩, -, hvec, ⟨w1, w2, w3, w4⟩, -⟩ := hs
  have hS := h.shut
  have hS' := h'.shut
  have ln := mem_halfEdges.1 i1
  have q := hS.quad ln
  have lf : f < S.tri.size := by rw [← i3]; exact hS.next_lt ln
  have lg : g < S.tri.size := by rw [← i4]; exact hS.next_lt lf
  have ln' := mem_halfEdges.1 j1
  have lk : k < S.tri.size := by rw [← j3]; exact hS.next_lt ln'
  have ll : l < S.tri.size := by rw [← j4]; exact hS.next_lt lk
  have mem : ∀ x, x ∈ S.tri.halfEdges ∨ x ∈ [a, neg a, c, neg c, d, neg d] → x < S'.tri.size := by
    intro x hx
    rw [← mem_halfEdges, hE, List.mem_append]
    exact hx
  have old : ∀ x, x < S.tri.size → x < S'.tri.size := fun x hx => mem x (.inl (mem_halfEdges.2 hx))
  have hne : f ≠ n ∧ f ≠ neg n ∧ g ≠ n ∧ g ≠ neg n ∧ k ≠ n ∧ k ≠ neg n ∧ l ≠ n ∧ l ≠ neg n := by
    have := q.nodup
    unfold Tri.nextInFace at i3 i4 j3 j4
    rw [i3, i4, j3, j4] at this
    simp only [List.nodup_cons, List.mem_cons, not_or, List.not_mem_nil, not_false_eq_true, and_true] at this
    obtain ⟨⟨m1, m2, m3, m4, m5⟩, ⟨m6, m7, m8, m9⟩, ⟨m10, m11, m12⟩, ⟨m13, m14⟩, m15⟩ := this
    exact ⟨Ne.symm m1, m7, Ne.symm m2, m10, Ne.symm m4, Ne.symm m13, Ne.symm m5, Ne.symm m14⟩
  obtain ⟨q1, q2, q3, q4, q5, q6, q7, q8⟩ := hne
  have vec : ∀ x, x < S.tri.size → x ≠ n → x ≠ neg n → S'.vec x = S.vec x := fun x hx h1 h2 =>
    hvec x (mem_halfEdges.2 hx) (by simp [h1, h2])
  have on := hS.flat.odd n ln
  have oc := hS'.flat.odd c (mem c (by simp))
  have oa := hS'.flat.odd a (mem a (by simp))
  refine ⟨⟨hS, hS', ⟨ln, lf, lg⟩, ⟨old f lf, old g lg, mem d (by simp), mem _ (by simp)⟩, i3, i4, i5, c1, c2, c3, d1, d2, d3,
    w4, w3, w1, vec f lf q1 q2, vec g lg q3 q4, hv.collinear⟩, ⟨hS, hS', ⟨ln', lk, ll⟩,
    ⟨old k lk, old l ll, old _ ln', by rw [neg_neg']; exact old n ln⟩, j3, j4, j5, by rw [neg_neg']; exact a1, by rw [neg_neg']; exact a2, a3, b1, b2, b3,
    ?_, ?_, ?_, vec k lk q5 q6, vec l ll q7 q8, ?_⟩⟩
  · rw [w2, on]; abel
  · rw [on]
    rw [w1] at oa
    rw [← neg_neg (S'.vec a), ← oa]
    abel
  · rw [oc, w3]; abel
  · rw [on]
    have := hv.collinear
    simp only [cross, neg_x, neg_y, sub_x, sub_y] at this ⊢
    linear_combination (-1 : T) * this

/-- The corners can be laid out in the plane. -/
theorem layouts_exist {dbg : Bool} {S S' : FlatTri T} (h : Closed dbg S) (h' : Closed dbg S') {n f g k l a c d : HE}
    {v : Vec T} (hv : EndsOnEdge S n v) (hs : SubdividesEdge S S' n f g k l a c d v) :
    (∃ C C', CutLayout S S' n C C' ∧ C n = 0) ∧ ∃ C C', CutLayout S S' (neg n) C C' ∧ C (neg n) = 0 := by
  obtain ⟨k1, k2⟩ := cuts h h' hv hs
  have hn : (S.tri.halfEdges ++ [a, neg a, c, neg c, d, neg d]).Nodup := by
    rw [← hs.halfEdges]
    exact List.nodup_range
  rw [List.nodup_append] at hn
  obtain ⟨-, h2, h3⟩ := hn
  have h4 := (h.shut.quad k1.lt.1).nodup
  rw [k1.fn, k1.ff, k2.fn, k2.ff] at h4
  have h3' : ∀ x < S.tri.size, x ≠ a ∧ x ≠ neg a ∧ x ≠ c ∧ x ≠ neg c ∧ x ≠ d ∧ x ≠ neg d := by
    intro x hx
    have h3 := h3 x (mem_halfEdges.2 hx)
    refine ⟨h3 _ (by simp), h3 _ (by simp), h3 _ (by simp), h3 _ (by simp), h3 _ (by simp), h3 _ (by simp)⟩
  have m1 := h3' f k1.lt.2.1
  have m2 := h3' g k1.lt.2.2
  have m3 := h3' k k2.lt.2.1
  have m4 := h3' l k2.lt.2.2
  have m5 := h3' n k1.lt.1
  have m6 := h3' _ k2.lt.1
  simp only [List.nodup_cons, List.mem_cons, not_or, List.not_mem_nil, not_false_eq_true, and_true] at h2 h4
  constructor
  · refine k1.exists_layout ?_ ?_
    · simp only [List.nodup_cons, List.mem_cons, not_or, List.not_mem_nil, not_false_eq_true, and_true]
      tauto
    · simp only [List.nodup_cons, List.mem_cons, not_or, List.not_mem_nil, not_false_eq_true, and_true]
      grind
  · refine k2.exists_layout ?_ ?_
    · simp only [List.nodup_cons, List.mem_cons, not_or, List.not_mem_nil, not_false_eq_true, and_true]
      tauto
    · simp only [List.nodup_cons, List.mem_cons, not_or, List.not_mem_nil, not_false_eq_true, and_true, neg_neg']
      grind

/-- The point at which the vertex is inserted. -/
theorem splitPoint_ok {S S' : FlatTri T} {n f g a c d : HE} {v : Vec T} (h : Cut S S' n f g a c d v) (dbg : Bool) :
    ∃ V, splitPoint dbg S S' n a = .ok V ∧ V.face = n ∧ V.c = 0 ∧ V.b ≠ 0 ∧ Normal S V := by
  obtain ⟨l1, l2, l3, l4⟩ := h.lefts
  have hp : S.tri.faces.inv n = g := by rw [← h.fg, h.shut.flat.coh.hf.left]
  have e : S.vec g = -(S.vec n + S.vec f) := by rw [eq_neg_iff_add_eq_zero, add_comm]; exact h.closed
  have hl := h.line
  have hb : S.barycentric n v = (cross (S.vec f) (v - S.vec n), cross (S.vec g) v, 0) := by
    unfold barycentric Tri.previousInFace
    rw [hp]
    rw [e]
    simp only [cross, neg_x, neg_y, add_x, add_y, sub_x, sub_y, Prod.mk.injEq] at hl ⊢
    refine ⟨?_, ?_, ?_⟩
    · ring
    · ring
    · linear_combination hl
  refine ⟨⟨n, cross (S.vec f) (v - S.vec n), cross (S.vec g) v, 0⟩, ?_, rfl, rfl, l2.ne',
    ⟨h.lt.1, ⟨l1.le, l2.le, le_rfl⟩, by dsimp only; positivity⟩, .inr ⟨rfl, l1⟩⟩
  unfold splitPoint
  rw [h.va, hb]
  dsimp only
  rw [if_pos ⟨l1.le, l2.le, le_rfl⟩]
  unfold FlatTri.point FlatTri.normalize
  have hs : ¬ cross (S.vec f) (v - S.vec n) + cross (S.vec g) v + 0 < 0 := by
    rw [not_lt]; positivity
  rw [if_neg (by have := h.lt.1; omega), if_neg (by dsimp only; positivity)]
  dsimp only
  rw [if_neg (by rw [not_or, not_or]; exact ⟨l1.not_gt, l2.not_gt, lt_irrefl _⟩), if_neg hs]
  unfold normalizeLoop
  simp [l1.ne']

/-- Points in one of the faces at the edge. -/
theorem adjacent {S S' : FlatTri T} {n f g a c d : HE} {v : Vec T} (h : Cut S S' n f g a c d v) {dbg : Bool}
    (h0 : Closed dbg S) (h' : Closed dbg S') {V : Point T} (hV : V.face = n ∨ V.face = neg n) (hVc : V.c = 0) (hVb : V.b ≠ 0)
    (hVn : Normal S V) {δ p : Point T} (hp : C30.Created dbg S δ p) (hf : IsSide S n p.face) {fuel : ℕ} (hfu : 3 ≤ fuel) :
    S.pointIsIn V p.face = true ∧ ∃ r d' p', splitSide S V fuel p.face = some n ∧ splitCoordinates dbg S S' p n = .ok p' ∧
      C30.Created dbg S' d' p' ∧ SamePosition S δ r ∧ SameInCutFace S S' n r d' := by
  obtain ⟨n1, s1⟩ := hp.normal h0
  have lt := h.lt
  have on : ∀ {x}, x < S.tri.size → (S.pointIsOn V (Edge.ofHalfEdge x) = true ↔ x = n ∨ x = neg n) := by
    intro x hx
    rw [h.shut.pointIsOn hVn hx]
    simp only [hVb, hVc, false_and, false_or, ne_eq, not_false_eq_true, true_and]
    rcases hV with e | e <;> rw [e] <;> constructor
    · rintro (rfl | rfl)
      · exact .inl rfl
      · exact .inr (neg_neg' _).symm
    · rintro (rfl | rfl)
      · exact .inl rfl
      · exact .inr (neg_neg' _).symm
    · rintro (rfl | e)
      · exact .inr rfl
      · exact .inl (neg_inj'.1 e).symm
    · rintro (rfl | rfl)
      · exact .inr rfl
      · exact .inl rfl
  have hne : f ≠ n ∧ f ≠ neg n ∧ g ≠ n ∧ g ≠ neg n := by
    have := (h.shut.quad h.lt.1).nodup
    rw [h.fn, h.ff] at this
    simp only [List.nodup_cons, List.mem_cons, not_or] at this
    exact ⟨Ne.symm this.1.1, this.2.1.2.1, Ne.symm this.1.2.1, this.2.2.1.1⟩
  have on1 := (on lt.1).2 (.inl rfl)
  have on2 : S.pointIsOn V (Edge.ofHalfEdge f) = false := by
    rw [← Bool.not_eq_true, on lt.2.1]; tauto
  have on3 : S.pointIsOn V (Edge.ofHalfEdge g) = false := by
    rw [← Bool.not_eq_true, on lt.2.2]; tauto
  rw [h.side_iff] at hf
  have hin : S.pointIsIn p n = true := by
    rw [h.shut.pointIsIn, h.fn, h.ff]
    exact ⟨p.face, hf, .inl rfl⟩
  obtain ⟨⟨x, y, z⟩, r1, r2⟩ := h.shut.coordinates n1 lt.1 hin
  have hd := (r2.describes h.shut).1 n1.toDescribes
  obtain ⟨e, e1, e2, e3⟩ := h.splitCoordinates dbg r1 hd
  obtain ⟨q, hq, -⟩ := C30.point_accepts h' e1
  obtain ⟨m, rfl⟩ : ∃ m, fuel = m + 3 := ⟨fuel - 3, by omega⟩
  refine ⟨?_, _, e, q, ?_, by rw [e2]; exact hq.2, hq, s1.trans r2, e3⟩
  · rw [h.shut.pointIsIn]
    refine ⟨n, ?_, .inr on1⟩
    rcases hf with e | e | e <;> rw [e]
    · exact .inl rfl
    · rw [h.ff, h.fg]; exact .inr (.inr rfl)
    · rw [h.fg]; exact .inr (.inl rfl)
  · rcases hf with e | e | e <;> rw [e]
    · simp [splitSide, on1]
    · simp [splitSide, on1, on2, on3, Tri.nextInFace, h.ff, h.fg]
    · simp [splitSide, on1, on3, Tri.nextInFace, h.fg]

/-- The image of a point in one of the faces at the edge exists and is the point of the codomain at the same position. -/
theorem split_correct {dbg : Bool} {S S' : FlatTri T} (h : Closed dbg S) (h' : Closed dbg S') {n f g k l a c d : HE}
    {v : Vec T} (hv : EndsOnEdge S n v) (hs : SubdividesEdge S S' n f g k l a c d v) {δ p : Point T}
    (hp : C30.Created dbg S δ p) (hf : IsSide S n p.face ∨ IsSide S (neg n) p.face) {fuel : ℕ} (hfu : 3 ≤ fuel) :
    ∃ δ' p', splitMapPoint dbg fuel S S' n (neg a) p = some (.ok (.codomain, p')) ∧ C30.Created dbg S' δ' p' ∧
      SameAfterSplit S S' n δ δ' := by
  obtain ⟨k1, k2⟩ := cuts h h' hv hs
  obtain ⟨V, v1, v2, v3, v4, v5⟩ := splitPoint_ok k1 dbg
  unfold splitMapPoint
  rw [v1]
  rcases hf with hf | hf
  · obtain ⟨g1, r, δ', p', g2, g3, g4, g5, g6⟩ := adjacent k1 h h' (.inl v2) v3 v4 v5 hp hf hfu
    exact ⟨δ', p', by simp [g1, g2, g3, Except.map], g4, r, δ', g5, .inr (.inl g6), .refl _⟩
  · obtain ⟨g1, r, δ', p', g2, g3, g4, g5, g6⟩ := adjacent k2 h h' (.inr (by rw [v2, neg_neg'])) v3 v4 v5 hp hf hfu
    exact ⟨δ', p', by simp [g1, g2, g3, Except.map], g4, r, δ', g5, .inr (.inr g6), .refl _⟩

/-- Points with respect to other faces are returned as they are, i.e., as points of the domain. Their coordinates describe
the same position in the codomain. -/
theorem elsewhere {dbg : Bool} {S S' : FlatTri T} (h : Closed dbg S) (h' : Closed dbg S') {n f g k l a c d : HE}
    {v : Vec T} (hv : EndsOnEdge S n v) (hs : SubdividesEdge S S' n f g k l a c d v) {δ p : Point T}
    (hp : C30.Created dbg S δ p) (hf : ¬ IsSide S n p.face) (hf' : ¬ IsSide S (neg n) p.face) (fuel : ℕ) :
    splitMapPoint dbg fuel S S' n (neg a) p = some (.ok (.domain, p)) ∧ Describes S' p ∧ SameAfterSplit S S' n δ p := by
  obtain ⟨k1, k2⟩ := cuts h h' hv hs
  obtain ⟨V, v1, v2, v3, v4, v5⟩ := splitPoint_ok k1 dbg
  obtain ⟨n1, s1⟩ := hp.normal h
  have inj : ∀ {x y}, S.tri.faces.fwd x = S.tri.faces.fwd y → x = y := fun hxy => h.shut.flat.coh.hf.inj hxy
  refine ⟨?_, ⟨?_, n1.nonneg, n1.pos⟩, p, p, s1, .inl ⟨hf, hf', rfl⟩, .refl _⟩
  · unfold splitMapPoint
    rw [v1]
    dsimp only
    rw [if_pos]
    rw [Bool.not_eq_true', ← Bool.not_eq_true, h.shut.pointIsIn]
    rintro ⟨x, hx, hV⟩
    have hlt : x < S.tri.size := by
      rcases hx with rfl | rfl | rfl
      · exact n1.lt
      · exact h.shut.next_lt n1.lt
      · exact h.shut.next_lt (h.shut.next_lt n1.lt)
    have hxn : x = n ∨ x = neg n := by
      rcases hV with e | e
      · rw [v2] at e; exact .inl e.symm
      · rw [h.shut.pointIsOn v5 hlt, v2] at e
        rcases e with ⟨e, -⟩ | ⟨-, -, e | e⟩
        · exact absurd e v4
        · exact .inl e.symm
        · exact .inr (by rw [e, neg_neg'])
    have back : ∀ {m : HE} {f g a c d : HE} {v : Vec T}, Cut S S' m f g a c d v → x = m → IsSide S m p.face := by
      rintro m f g a c d v k rfl
      rw [k.side_iff]
      rcases hx with e | e | e
      · exact .inl e.symm
      · exact .inr (.inr (inj (by rw [k.fg, ← e])))
      · exact .inr (.inl (inj (inj (by rw [k.ff, k.fg, ← e]))))
    rcases hxn with e | e
    · exact hf (back k1 e)
    · exact hf' (back k2 e)
  · rw [← mem_halfEdges, hs.halfEdges, List.mem_append, mem_halfEdges]
    exact .inl n1.lt

/-! ### A concrete case -/

/-- The torus with sides of length 3 after a vertex has been inserted at `(2, 0)` on the half edge 0. -/
def splitTorus : FlatTri ℤ :=
  match bigTorus.insertOnEdge (none : Option (Approx ℤ ℚ)) true 0 ⟨2, 0⟩ with
  | .ok S' => S'
  | .error _ => bigTorus

theorem splitTorus_subdivided : EndsOnEdge bigTorus 0 ⟨2, 0⟩ ∧ Closed true splitTorus ∧
    ∃ f g k l a c d, SubdividesEdge bigTorus splitTorus 0 f g k l a c d ⟨2, 0⟩ := by
  have hv : EndsOnEdge bigTorus 0 ⟨2, 0⟩ := ⟨by decide, by decide, by decide⟩
  obtain ⟨S', f, g, k, l, a, c, d, h1, h2, -, h4⟩ := C86.edge_correct (none : Option (Approx ℤ ℚ)) C86.bigTorus_closed
    (n := 0) (by decide) hv
  have hS : splitTorus = S' := by unfold splitTorus; rw [h1]
  rw [hS]
  exact ⟨hv, h2, f, g, k, l, a, c, d, h4⟩

/-- A point in each of the faces at the edge. -/
example : C30.Created true bigTorus ⟨2, 1, 1, 2⟩ ⟨2, 1, 1, 2⟩ ∧ C30.Created true bigTorus ⟨4, 1, 1, 3⟩ ⟨4, 1, 1, 3⟩ ∧
    [(⟨2, 1, 1, 2⟩ : Point ℤ), ⟨4, 1, 1, 3⟩].map (fun p => (splitMapPoint true 3 bigTorus splitTorus 0 7 p).bind fun r =>
      r.toOption.map fun r => (r.1, r.2.face, r.2.a, r.2.b, r.2.c)) =
      [some (.codomain, 10, 9, 6, 9), some (.codomain, 0, 6, 9, 15)] :=
  ⟨⟨⟨by decide, by decide, by decide⟩, rfl⟩, ⟨⟨by decide, by decide, by decide⟩, rfl⟩, by decide +kernel⟩

end Verif.C88
