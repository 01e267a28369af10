import Verif.Lemmas.InsertAt
import Verif.Spec.InsertAt
import Verif.Props.C10
import Verif.Props.C19
import Verif.Lemmas.Cone
import Verif.Lemmas.FlatExamples

/-!
# C86: insertAt puts a vertex at the end of the vector
-/

namespace Verif.C86

open Verif Spec Tri FlatTri Examples Vec

variable {T : Type} [CommRing T] [LinearOrder T] [IsStrictOrderedRing T]
variable {K : Type} [Field K] [LinearOrder K] [IsStrictOrderedRing K]

/-- Four half edges that are permuted in a cycle at a vertex. -/
theorem orbit4 {t : Tri} {a b c d : HE} (h1 : t.nextAtVertex a = b) (h2 : t.nextAtVertex b = c) (h3 : t.nextAtVertex c = d)
    (h4 : t.nextAtVertex d = a) : IsOrbit t a {a, b, c, d} := by
  intro x
  simp only [Finset.mem_insert, Finset.mem_singleton]
  constructor
  · rintro (rfl | rfl | rfl | rfl)
    · exact ⟨0, rfl⟩
    · exact ⟨1, h1⟩
    · exact ⟨2, by change t.nextAtVertex (t.nextAtVertex a) = _; rw [h1, h2]⟩
    · exact ⟨3, by change t.nextAtVertex (t.nextAtVertex (t.nextAtVertex a)) = _; rw [h1, h2, h3]⟩
  · rintro ⟨k, rfl⟩
    have key : ∀ k, t.nextAtVertex^[k] a = a ∨ t.nextAtVertex^[k] a = b ∨ t.nextAtVertex^[k] a = c ∨
        t.nextAtVertex^[k] a = d := by
      intro k
      induction k with
      | zero => exact .inl rfl
      | succ k ih =>
        rw [Function.iterate_succ_apply']
        rcases ih with ih | ih | ih | ih <;> rw [ih]
        · exact .inr (.inl h1)
        · exact .inr (.inr (.inl h2))
        · exact .inr (.inr (.inr h3))
        · exact .inl h4
    exact key k

theorem orbit_same {t t' : Tri} (h : Same t t') {e : HE} {s : Finset HE} : IsOrbit t' e s ↔ IsOrbit t e s := by
  have : t'.nextAtVertex = t.nextAtVertex := funext h.nextAtVertex
  unfold IsOrbit
  rw [this]

theorem face_same {t t' : Tri} (h : Same t t') {x y z : HE} : IsFace t' x y z ↔ IsFace t x y z := by
  unfold IsFace
  rw [h.halfEdges, h.boundary, h.nextInFace, h.nextInFace, h.nextInFace]

theorem closed_of {dbg : Bool} {S : FlatTri T} (h : S.tri.Reachable dbg) (hF : S.Flat)
    (hb : ∀ x < S.tri.size, S.tri.faces.fwd x ≠ x) : Closed dbg S :=
  ⟨h, hF.isFlat, hasBoundary_false.2 hb⟩

/-- When the vector ends in the interior of the face, then the face is subdivided. -/
theorem face_correct (A : Option (Approx T K)) {dbg : Bool} {S : FlatTri T} (h : Closed dbg S) {n : HE}
    (hn : n ∈ S.tri.halfEdges) {v : Vec T} (hv : EndsInFace S n v) :
    ∃ S' f g a b c, S.insertInFace A dbg n v = .ok S' ∧ Closed dbg S' ∧ S'.area2 = S.area2 ∧
      SubdividesFace S S' n f g a b c v := by
  have hs := h.shut
  rw [mem_halfEdges] at hn
  have q := hs.quad hn
  obtain ⟨g1, g2, g3, g4, g5, g6, g7, g8, g9⟩ := hs.flat.quad q
  obtain ⟨v1, v2, v3⟩ := hv
  unfold Tri.nextInFace at v2 v3
  have h3 : cross (S.vec (S.tri.vertices.fwd n)) v < 0 := by
    rw [q.ve, g3]
    have e : S.vec n + S.vec (S.tri.faces.fwd n) = -S.vec (S.tri.faces.fwd (S.tri.faces.fwd n)) :=
      eq_neg_of_add_eq_zero_left g6
    rw [e] at v3
    simp only [cross, neg_x, neg_y, sub_x, sub_y] at v3 ⊢
    linarith
  obtain ⟨C, S', i1, i2, i3, i4, i5, i6, i7⟩ := hs.insertInFace hn A dbg v1 v2 h3
  obtain ⟨n0, n1, n2, n3, n4, n5⟩ := neg_new hs.flat.coh.even
  have hface : IsFace S.tri n (S.tri.faces.fwd n) (S.tri.faces.fwd (S.tri.faces.fwd n)) :=
    ⟨mem_halfEdges.2 hn, boundary_false.2 (hs.nb n hn), rfl, rfl, q.fb⟩
  obtain ⟨C', a, b, c, j1, j2, j3, j4, j5⟩ := C10.insertAt_correct (dbg := dbg) h.reachable hface
  cases i1.symm.trans j1
  have hlen : S.tri.edges.length = S.tri.size / 2 := by simp [edges]
  have hev := hs.flat.coh.even
  obtain ⟨e1, e2, e3⟩ : a = S.tri.size ∧ b = S.tri.size + 2 ∧ c = S.tri.size + 4 := by
    obtain ⟨k1, k2, k3⟩ := j5.newEdges
    rw [hlen] at k1 k2 k3
    change S.tri.vertices.size % 2 = 0 at hev
    unfold heId size at *
    refine ⟨?_, ?_, ?_⟩ <;> · split_ifs at k1 k2 k3 <;> omega
  subst e1 e2 e3
  have hsz : S'.tri.halfEdges = S.tri.halfEdges ++ [S.tri.size, neg S.tri.size, S.tri.size + 2, neg (S.tri.size + 2),
      S.tri.size + 4, neg (S.tri.size + 4)] := by rw [i4.halfEdges]; exact j5.halfEdges
  refine ⟨S', _, _, S.tri.size, S.tri.size + 2, S.tri.size + 4, i2, closed_of i3 i5 ?_, i6, hface, hsz,
    (face_same i4).2 j5.face1, (face_same i4).2 j5.face2, (face_same i4).2 j5.face3, ?_, ?_, ?_, ?_, ?_⟩
  · intro x hx
    have hb := i4.boundary x
    rw [← boundary_false, hb]
    have hx' : x ∈ S'.tri.halfEdges := mem_halfEdges.2 hx
    rw [hsz] at hx'
    have bf := j3.face_boundary
    rcases List.mem_append.1 hx' with hx' | hx'
    · by_cases hm : x ∈ [n, S.tri.faces.fwd n, S.tri.faces.fwd (S.tri.faces.fwd n)]
      · simp only [List.mem_cons, List.not_mem_nil, or_false] at hm
        rcases hm with rfl | rfl | rfl
        · exact j5.face1.2.1
        · exact j5.face2.2.1
        · exact j5.face3.2.1
      · rw [(j5.others x hx' hm).2, boundary_false]
        exact hs.nb x (mem_halfEdges.1 hx')
    · have m : ∀ {x y z}, IsFace C x y z → C.boundary y = false ∧ C.boundary z = false := by
        intro x y z hf
        have h1 := bf x hf.1
        rw [hf.2.2.1, hf.2.1] at h1
        have h2 := bf y (by rw [← hf.2.2.1]; exact (j3.closed x hf.1).1)
        rw [hf.2.2.2.1, h1] at h2
        exact ⟨h1, h2⟩
      simp only [List.mem_cons, List.not_mem_nil, or_false] at hx'
      rcases hx' with rfl | rfl | rfl | rfl | rfl | rfl
      · exact (m j5.face1).2
      · exact (m j5.face3).1
      · exact (m j5.face2).2
      · exact (m j5.face1).1
      · exact (m j5.face3).2
      · exact (m j5.face2).1
  · intro x hx hm
    rw [i4.nextInFace]
    exact (j5.others x hx hm).1
  · intro x hx
    exact i7.old x (mem_halfEdges.1 hx)
  · rw [n0]
    exact ⟨i7.a', i7.b, i7.c⟩
  · exact (orbit_same i4).2 j5.vertex.1
  · exact i4.vertices.mem_iff.2 j5.vertex.2

theorem edge_not_boundary {S : FlatTri T} (hs : S.Shut) {n : HE} (hn : n < S.tri.size) {C : Tri} (hE : EdgeFaces S C n) {x : HE}
    (hx : x < S.tri.size + 6) : C.faces.fwd x ≠ x := by
  have q := hs.quad hn
  obtain ⟨le, la, lb, lk, ll, le'⟩ := q.lt
  obtain ⟨⟨-, -, -, ec, -⟩, -, -, ⟨-, e'd⟩, -⟩ := q.ne
  by_cases hxs : x < S.tri.size
  · by_cases hm : x ∈ [n, S.tri.faces.fwd n, S.tri.faces.fwd (S.tri.faces.fwd n), neg n, S.tri.faces.fwd (neg n),
      S.tri.faces.fwd (S.tri.faces.fwd (neg n))]
    · rcases mem_six_cases hm with hm | hm | hm | hm | hm | hm <;> rw [hm]
      · rw [hE.fn]; exact le.ne'
      · rw [hE.ff]; exact (lt_of_lt_of_le la (Nat.le_add_right _ _)).ne'
      · rw [hE.fg]; exact (lt_of_lt_of_le lb (Nat.le_add_right _ _)).ne'
      · rw [hE.fn']; exact e'd.symm
      · rw [hE.fk]; exact ec
      · rw [hE.fl]; exact (lt_of_lt_of_le ll (Nat.le_add_right _ _)).ne'
    · rw [hE.fx x hxs hm]; exact hs.nb x hxs
  · have : x = S.tri.size ∨ x = S.tri.size + 1 ∨ x = S.tri.size + 2 ∨
        x = S.tri.size + 3 ∨ x = S.tri.size + 4 ∨ x = S.tri.size + 5 := by clear * - hx hxs; omega
    rcases this with rfl | rfl | rfl | rfl | rfl | rfl
    · rw [hE.fa]; exact lk.ne
    · rw [hE.fa']; simp
    · rw [hE.fb]; exact (lt_of_lt_of_le la (Nat.le_add_right _ _)).ne
    · rw [hE.fb']; exact (lt_of_lt_of_le le' (Nat.le_add_right _ _)).ne
    · rw [hE.fc]; exact (lt_of_lt_of_le lb (Nat.le_add_right _ _)).ne
    · rw [hE.fc']; simp

/-- When the vector ends in the interior of an edge, then the two faces at that edge are subdivided. -/
theorem edge_correct (A : Option (Approx T K)) {dbg : Bool} {S : FlatTri T} (h : Closed dbg S) {n : HE}
    (hn : n ∈ S.tri.halfEdges) {v : Vec T} (hv : EndsOnEdge S n v) :
    ∃ S' f g k l a c d, S.insertOnEdge A dbg n v = .ok S' ∧ Closed dbg S' ∧ S'.area2 = S.area2 ∧
      SubdividesEdge S S' n f g k l a c d v := by
  have hs := h.shut
  rw [mem_halfEdges] at hn
  have q := hs.quad hn
  have le' := hs.neg_lt hn
  obtain ⟨le, la, lb, lk, ll, -⟩ := q.lt
  obtain ⟨v1, v2, v3⟩ := hv
  obtain ⟨C, S', i1, i2, i3, i4, i5, i6, i7, i8, i9, i10, i11, i12⟩ := hs.insertOnEdge hn A dbg v1 v2 v3
  obtain ⟨n0, n1, n2, n3, n4, n5⟩ := neg_new hs.flat.coh.even
  have hE := i5
  obtain ⟨isz, ik, in_, ia, il, ib', in', if_, ic', ib, ig, ia', ic, ix⟩ := i5
  obtain ⟨⟨ea, eb, ee', ec, ed⟩, ⟨ab, ae', ac, ad⟩, ⟨be', bc, bd⟩, ⟨e'c, e'd⟩, cd⟩ := q.ne
  have hsz : S'.tri.halfEdges = S.tri.halfEdges ++ [S.tri.size, neg S.tri.size, S.tri.size + 2, neg (S.tri.size + 2),
      S.tri.size + 4, neg (S.tri.size + 4)] := by
    rw [i3.halfEdges]
    unfold Tri.halfEdges
    rw [isz, n2, n4, show neg S.tri.size = S.tri.size + 1 from n0, List.range_add]
    rfl
  have hmem : ∀ x < S.tri.size + 6, x ∈ S'.tri.halfEdges := fun x hx => by
    rw [i3.halfEdges]; exact mem_halfEdges.2 (by rw [isz]; exact hx)
  have hmk : ∀ x y z, x < S.tri.size + 6 → C.faces.fwd x = y → C.faces.fwd y = z → C.faces.fwd z = x → y ≠ x →
      IsFace S'.tri x y z := by
    intro x y z hx h1 h2 h3 hne
    refine ⟨hmem x hx, ?_, ?_, ?_, ?_⟩
    · rw [i3.boundary, boundary_false, h1]; exact hne
    · rw [i3.nextInFace]; exact h1
    · rw [i3.nextInFace]; exact h2
    · rw [i3.nextInFace]; exact h3
  have hVt := i2.inv.2.verticesCorrect i2.inv.1
  have horb : IsOrbit S'.tri S.tri.size {S.tri.size, neg n, S.tri.size + 2, S.tri.size + 4} :=
    (orbit_same i3).2 (orbit4 i6 i7 i8 i9)
  refine ⟨S', _, _, _, _, S.tri.size, S.tri.size + 2, S.tri.size + 4, i1, closed_of i2 i10 ?_, i11,
    ⟨mem_halfEdges.2 hn, boundary_false.2 (hs.nb n hn), rfl, rfl, q.fb⟩,
    ⟨mem_halfEdges.2 le', boundary_false.2 (hs.nb _ le'), rfl, rfl, q.fd⟩, hsz,
    hmk _ _ _ (lt_of_lt_of_le lk (Nat.le_add_right _ _)) ik in_ ia ec, ?_, ?_, ?_, ?_, ?_, ?_, horb, ?_⟩
  · intro x hx
    have hx' : x ∈ S'.tri.halfEdges := mem_halfEdges.2 hx
    rw [i3.halfEdges, mem_halfEdges, isz] at hx'
    have : S'.tri.faces.fwd x = C.faces.fwd x := i3.nextInFace x
    rw [this]
    exact edge_not_boundary hs hn hE hx'
  · rw [n2]
    exact hmk _ _ _ (lt_of_lt_of_le ll (Nat.le_add_right _ _)) il ib' in' (lt_of_lt_of_le ll (Nat.le_add_right _ _)).ne'
  · rw [n4]
    exact hmk _ _ _ (lt_of_lt_of_le la (Nat.le_add_right _ _)) if_ ic' ib (lt_of_lt_of_le la (Nat.le_add_right _ _)).ne'
  · rw [n0]
    exact hmk _ _ _ (lt_of_lt_of_le lb (Nat.le_add_right _ _)) ig ia' ic (lt_of_lt_of_le lb (Nat.le_add_right _ _)).ne'
  · intro x hx hm
    rw [i3.nextInFace]
    exact ix x (mem_halfEdges.1 hx) hm
  · intro x hx hm
    simp only [List.mem_cons, List.not_mem_nil, or_false, not_or] at hm
    exact i12.old x (mem_halfEdges.1 hx) hm.1 hm.2
  · rw [n0]
    exact ⟨i12.a', i12.b, i12.c, i12.d⟩
  · exact (hVt.2 _).2 ⟨S.tri.size, hmem _ (Nat.lt_add_of_pos_right (by norm_num)), horb⟩

/-! ### The search -/

theorem approach_trans {A : Option (Approx T K)} {dbg : Bool} {v : Vec T} {S S' S'' : FlatTri T} {n n' n'' : HE}
    {es es' : List HE} (h : Approach A dbg v S n es S' n') (h' : Approach A dbg v S' n' es' S'' n'') :
    Approach A dbg v S n (es ++ es') S'' n'' := by
  induction h with
  | done => exact h'
  | flip h1 h2 h3 _ ih => exact .flip h1 h2 h3 (ih h')
  | turn h1 h2 _ ih => exact .turn h1 h2 (ih h')

/-- The vector is to the left of the half edge, or has the same direction. -/
def Ahead (u v : Vec T) : Prop := 0 < cross u v ∨ cross u v = 0 ∧ 0 < dot u v

theorem flip_approach {A : Option (Approx T K)} {dbg : Bool} {v : Vec T} {n : HE} {fuel : ℕ} {start : Bool}
    {S S' : FlatTri T} {e : HE} {es : List HE} (h : Closed dbg S)
    (hr : insertFlip A dbg n v fuel start S e = some (.ok (S', es))) :
    Approach A dbg v S n es S' n ∧ Closed dbg S' ∧ S'.vec n = S.vec n ∧ S'.area2 = S.area2 ∧
      S'.tri.size = S.tri.size ∧ S.flips A dbg es = some S' := by
  induction fuel generalizing start S e S' es with
  | zero => cases hr
  | succ fuel ih =>
    unfold insertFlip at hr
    split at hr
    · cases hr
    split at hr
    · rename_i hc
      cases hf : S.flip A dbg e with
      | mk S1 r =>
        rw [hf] at hr
        cases r with
        | error err => cases hr
        | ok u =>
          cases hr
          unfold insertCanFlip notAtSector at hc
          simp only [Bool.and_eq_true, decide_eq_true_eq] at hc
          obtain ⟨⟨⟨⟨⟨c1, c2⟩, -⟩, -⟩, -⟩, -⟩ := hc
          have hfs : S.flips A dbg [e] = some S' := by
            unfold FlatTri.flips
            rw [hf]
            rfl
          obtain ⟨k1, k2, k3, k4, k5, k6⟩ := C17.flips_flat A h.reachable h.flat hfs
          refine ⟨.flip hf c1 c2 (.done _ _), (h.flip hf).1, k6 n (by simpa using fun hc => c1 hc.symm) ?_, k3, ?_, hfs⟩
          · simp only [List.mem_singleton]
            intro hc
            exact c2 hc.symm
          · have : S'.tri.halfEdges.length = S.tri.halfEdges.length := by rw [k4]
            simpa [Tri.halfEdges] using this
    · split at hr
      · cases hr
      · rename_i g _
        split at hr
        · cases hr
        · cases hr
        · rename_i S1 es1 h1
          split at hr
          · cases hr
          · cases hr
          · rename_i S2 es2 h2
            cases hr
            obtain ⟨a1, a2, a3, a4, a5, a6⟩ := ih h h1
            obtain ⟨b1, b2, b3, b4, b5, b6⟩ := ih a2 h2
            refine ⟨approach_trans a1 b1, b2, b3.trans a3, b4.trans a4, b5.trans a5, ?_⟩
            clear * - a6 b6
            induction es1 generalizing S with
            | nil => cases a6; exact b6
            | cons e es1 ih =>
              rw [List.cons_append]
              unfold FlatTri.flips at a6 ⊢
              rcases he : S.flip A dbg e with ⟨S3, (err | u)⟩
              · rw [he] at a6; cases a6
              · rw [he] at a6
                exact ih a6

theorem flips_append {A : Option (Approx T K)} {dbg : Bool} {S S' S'' : FlatTri T} {es es' : List HE}
    (h : S.flips A dbg es = some S') (h' : S'.flips A dbg es' = some S'') : S.flips A dbg (es ++ es') = some S'' := by
  induction es generalizing S with
  | nil => cases h; exact h'
  | cons e es ih =>
    rw [List.cons_append]
    unfold FlatTri.flips at h ⊢
    rcases he : S.flip A dbg e with ⟨S3, (err | u)⟩
    · rw [he] at h; cases h
    · rw [he] at h
      exact ih h

/-- Turning to the next half edge. -/
theorem ahead_next {dbg : Bool} {S : FlatTri T} (h : Closed dbg S) {n : HE} (hn : n < S.tri.size) {v : Vec T}
    (ha : Ahead (S.vec n) v) (hx : 0 ≤ cross (S.vec (S.tri.nextAtVertex n)) v) :
    0 < cross (S.vec n) v ∧ Ahead (S.vec (S.tri.nextAtVertex n)) v := by
  have hs := h.shut
  have q := hs.quad hn
  obtain ⟨g1, g2, g3, g4, g5, g6, g7, g8, g9⟩ := hs.flat.quad q
  have hp : 0 < cross (S.vec n) (S.vec (S.tri.nextAtVertex n)) := by
    unfold Tri.nextAtVertex
    rw [q.ve, g3]
    have o := hs.flat.oriented n (hs.nb n hn)
    have e : S.vec (S.tri.faces.fwd (S.tri.faces.fwd n)) = -(S.vec n + S.vec (S.tri.faces.fwd n)) := by
      rw [eq_neg_iff_add_eq_zero, add_comm]; exact g6
    rw [e]
    simp only [cross, neg_x, neg_y, add_x, add_y] at o ⊢
    linarith
  generalize S.vec (S.tri.nextAtVertex n) = w at *
  generalize S.vec n = u at *
  rcases ha with ha | ⟨h0, h1⟩
  · refine ⟨ha, ?_⟩
    rcases hx.lt_or_eq with hx | hx
    · exact .inl hx
    · refine .inr ⟨hx.symm, ?_⟩
      have e : cross u w * dot v v = dot w v * cross u v := by
        simp only [cross, dot] at *
        linear_combination (u.x * v.x + u.y * v.y) * hx
      have hv : v ≠ 0 := by rintro rfl; simp [cross] at ha
      have := mul_pos hp (dot_self_pos hv)
      rw [e] at this
      exact pos_of_mul_pos_left this ha.le
  · exfalso
    have e : cross w v * dot u u = -(cross u w * dot u v) := by
      simp only [cross, dot] at *
      linear_combination (w.x * u.x + w.y * u.y) * h0
    have hu : u ≠ 0 := by rintro rfl; simp [dot] at h1
    have h2 := mul_pos hp h1
    have h3 := mul_nonneg hx (dot_self_pos hu).le
    linarith

theorem ccw_not_clockwise (A : Option (Approx T K)) {u v : Vec T} : ccw A u v ≠ .clockwise ↔ 0 ≤ cross u v := by
  rw [ccw_eq, ne_eq, ccwExact_clockwise, not_lt]

theorem turn_approach {A : Option (Approx T K)} {dbg : Bool} {v : Vec T} {S : FlatTri T} (h : Closed dbg S) {fuel : ℕ}
    {n n' : HE} (hn : n < S.tri.size) (ha : Ahead (S.vec n) v) (hr : insertTurn A S v fuel n = some n') :
    Approach A dbg v S n [] S n' ∧ n' < S.tri.size ∧ Ahead (S.vec n') v ∧ cross (S.vec (S.tri.nextAtVertex n')) v < 0 := by
  induction fuel generalizing n with
  | zero => cases hr
  | succ fuel ih =>
    unfold insertTurn at hr
    split at hr
    · rename_i hc
      rw [ccw_not_clockwise] at hc
      obtain ⟨k1, k2⟩ := ahead_next h hn ha hc
      have hlt : S.tri.nextAtVertex n < S.tri.size := by
        unfold Tri.nextAtVertex
        have q := h.shut.quad hn
        rw [q.ve]
        exact h.shut.neg_lt q.lt.2.2.1
      obtain ⟨i1, i2, i3, i4⟩ := ih hlt k2 hr
      exact ⟨.turn k1 hc i1, i2, i3, i4⟩
    · rename_i hc
      cases hr
      rw [ccw_not_clockwise, not_le] at hc
      exact ⟨.done _ _, hn, ha, hc⟩

/-- What the search establishes. -/
theorem search_approach {A : Option (Approx T K)} {dbg : Bool} {v : Vec T} {fuel : ℕ} {S S' : FlatTri T} {n n' : HE}
    {es : List HE} (h : Closed dbg S) (hn : n < S.tri.size) (ha : Ahead (S.vec n) v)
    (hx : cross (S.vec (S.tri.nextAtVertex n)) v < 0) (hr : insertSearch A dbg v fuel S n = some (.ok (S', es, n'))) :
    Approach A dbg v S n es S' n' ∧ Closed dbg S' ∧ S'.area2 = S.area2 ∧ S.flips A dbg es = some S' ∧ n' < S'.tri.size ∧
      (EndsInFace S' n' v ∨ EndsOnEdge S' n' v) := by
  induction fuel generalizing S n S' n' es with
  | zero => cases hr
  | succ fuel ih =>
    unfold insertSearch at hr
    split at hr
    · rename_i hc
      rw [ccw_eq, ccwExact_collinear] at hc
      cases hk : insertCheck A v (S.vec n) with
      | error err => rw [hk] at hr; cases hr
      | ok u =>
        rw [hk] at hr
        cases hr
        refine ⟨.done _ _, h, rfl, rfl, hn, .inr ⟨hc, (ha.resolve_left (by rw [hc]; exact lt_irrefl _)).2, ?_⟩⟩
        unfold insertCheck at hk
        split at hk
        · cases hk
        · cases hk
        · rename_i ho
          rw [orientation_same] at ho
          have hd := (ha.resolve_left (by rw [hc]; exact lt_irrefl _)).2
          generalize S.vec n = u at *
          have e : dot (u - v) v * dot u u = dot u v * dot u (u - v) := by
            simp only [cross, dot, sub_x, sub_y] at *
            linear_combination (-(u.x * v.y - u.y * v.x)) * hc
          have hu : u ≠ 0 := by rintro rfl; simp [dot] at hd
          have := mul_pos ho (dot_self_pos hu)
          rw [e] at this
          exact pos_of_mul_pos_right this hd.le
    · rename_i hc
      rw [ccw_eq, ccwExact_collinear] at hc
      have hp : 0 < cross (S.vec n) v := ha.resolve_right (fun hc' => hc hc'.1)
      split at hr
      · cases hr
      split at hr
      · rename_i hcr
        cases hr
        rw [ccw_eq, ccwExact_ccw] at hcr
        refine ⟨.done _ _, h, rfl, rfl, hn, .inl ⟨hp, hcr, ?_⟩⟩
        have q := h.shut.quad hn
        obtain ⟨g1, g2, g3, g4, g5, g6, g7, g8, g9⟩ := h.shut.flat.quad q
        have e : S.vec n + S.vec (S.tri.faces.fwd n) = -S.vec (S.tri.faces.fwd (S.tri.faces.fwd n)) :=
          eq_neg_of_add_eq_zero_left g6
        unfold Tri.nextAtVertex at hx
        unfold Tri.nextInFace
        rw [e]
        rw [q.ve, g3] at hx
        simp only [cross, neg_x, neg_y, sub_x, sub_y] at hx ⊢
        linarith
      · split at hr
        · cases hr
        · cases hr
        · rename_i S1 es1 h1
          obtain ⟨a1, a2, a3, a4, a5, a6⟩ := flip_approach h h1
          split at hr
          · cases hr
          split at hr
          · cases hr
          · rename_i n1 h2
            obtain ⟨b1, b2, b3, b4⟩ := turn_approach (dbg := dbg) a2 (by rw [a5]; exact hn) (by rw [a3]; exact ha) h2
            split at hr
            · cases hr
            · cases hr
            · rename_i S2 es2 n2 h3
              cases hr
              obtain ⟨c1, c2, c3, c4, c5, c6⟩ := ih a2 b2 b3 b4 h3
              refine ⟨?_, c2, c3.trans a4, flips_append a6 c4, c5, c6⟩
              have := approach_trans (approach_trans a1 b1) c1
              simpa using this

theorem ends_exclusive {S : FlatTri T} {n : HE} {v : Vec T} (h : EndsInFace S n v) : cross (S.vec n) v ≠ 0 := h.side1.ne'

theorem sector_ahead (A : Option (Approx T K)) {dbg : Bool} {S : FlatTri T} (h : Closed dbg S) {n : HE} (hn : n < S.tri.size)
    {v : Vec T} (hi : S.inSector A n v = true) :
    Ahead (S.vec n) v ∧ cross (S.vec (S.tri.nextAtVertex n)) v < 0 := by
  rw [inSector_iff] at hi
  obtain ⟨h1, h2⟩ := hi
  refine ⟨?_, h2⟩
  rcases (not_lt.1 h1).lt_or_eq with h1 | h1
  · exact .inl h1
  · refine .inr ⟨h1.symm, ?_⟩
    by_contra hc
    have hs := h.shut
    have q := hs.quad hn
    obtain ⟨g1, g2, g3, g4, g5, g6, g7, g8, g9⟩ := hs.flat.quad q
    have hp : 0 < cross (S.vec n) (S.vec (S.tri.vertices.fwd n)) := by
      rw [q.ve, g3]
      have o := hs.flat.oriented n (hs.nb n hn)
      have e : S.vec (S.tri.faces.fwd (S.tri.faces.fwd n)) = -(S.vec n + S.vec (S.tri.faces.fwd n)) := by
        rw [eq_neg_iff_add_eq_zero, add_comm]; exact g6
      rw [e]
      simp only [cross, neg_x, neg_y, add_x, add_y] at o ⊢
      linarith
    generalize S.vec (S.tri.vertices.fwd n) = w at *
    have hu : S.vec n ≠ 0 := hs.flat.vec_ne (hs.nb n hn)
    generalize S.vec n = u at *
    have e : cross w v * dot u u = -(cross u w * dot u v) := by
      simp only [cross, dot] at *
      linear_combination (-(w.x * u.x + w.y * u.y)) * h1
    have h3 := mul_neg_of_neg_of_pos h2 (dot_self_pos hu)
    have h4 := mul_nonneg hp.le (neg_nonneg.2 (not_lt.1 hc))
    rw [e] at h3
    linarith

/-- If `insertAt` returns, then there is a vertex at the end of the vector: edges have been flipped until the vector
ends inside a face or on an edge at the vertex it starts from, and then that face or the faces at that edge have been
subdivided. The surface is flat and the area has not changed. -/
theorem insertAt_correct {A : Option (Approx T K)} {dbg : Bool} {fuel : ℕ} {S : FlatTri T} (h : Closed dbg S) {n : HE}
    {v : Vec T} {R : Insertion T} (hr : S.insertAt A dbg fuel n v = some (.ok R)) :
    S.flips A dbg R.flips = some R.flipped ∧ Approach A dbg v S n R.flips R.flipped R.at_ ∧
    Closed dbg R.codomain ∧ R.codomain.area2 = S.area2 ∧
    ((EndsInFace R.flipped R.at_ v ∧ R.nextTo = R.at_ ∧
        ∃ f g a b c, SubdividesFace R.flipped R.codomain R.at_ f g a b c v) ∨
      EndsOnEdge R.flipped R.at_ v ∧ R.nextTo = R.flipped.tri.previousAtVertex R.at_ ∧
        ∃ f g k l a c d, SubdividesEdge R.flipped R.codomain R.at_ f g k l a c d v) := by
  unfold FlatTri.insertAt at hr
  split at hr
  · cases hr
  rename_i hn
  rw [not_le] at hn
  split at hr
  · cases hr
  rename_i hi
  have hi : S.inSector A n v = true := by simpa using hi
  obtain ⟨ha, hx⟩ := sector_ahead A h hn hi
  split at hr
  · cases hr
  · cases hr
  rename_i S' es n' hsr
  obtain ⟨k1, k2, k3, k4, k5, k6⟩ := search_approach h hn ha hx hsr
  split at hr
  · rename_i hc
    rw [ccw_eq, ne_eq, ccwExact_collinear] at hc
    split at hr
    · cases hr
    have k7 := k6.resolve_right (fun hc' => hc hc'.collinear)
    obtain ⟨S'', f, g, a, b, c, i1, i2, i3, i4⟩ := face_correct A k2 (mem_halfEdges.2 k5) k7
    rw [i1] at hr
    cases hr
    exact ⟨k4, k1, i2, i3.trans k3, .inl ⟨k7, rfl, f, g, a, b, c, i4⟩⟩
  · rename_i hc
    rw [ne_eq, not_not, ccw_eq, ccwExact_collinear] at hc
    have k7 := k6.resolve_left (fun hc' => ends_exclusive hc' hc)
    obtain ⟨S'', f, g, k, l, a, c, d, i1, i2, i3, i4⟩ := edge_correct A k2 (mem_halfEdges.2 k5) k7
    rw [i1] at hr
    cases hr
    exact ⟨k4, k1, i2, i3.trans k3, .inr ⟨k7, rfl, f, g, k, l, a, c, d, i4⟩⟩

/-- No edge is flipped when the vector ends in the interior of the face or on the half edge. -/
theorem inside_correct (A : Option (Approx T K)) {dbg : Bool} {S : FlatTri T} (h : Closed dbg S) {n : HE}
    (hn : n ∈ S.tri.halfEdges) {v : Vec T} (hv : EndsInFace S n v ∨ EndsOnEdge S n v) {fuel : ℕ} (hf : 0 < fuel) :
    ∃ R, S.insertAt A dbg fuel n v = some (.ok R) ∧ R.flips = [] ∧ R.flipped = S ∧ R.at_ = n := by
  have hn' := mem_halfEdges.1 hn
  have hs := h.shut
  have q := hs.quad hn'
  obtain ⟨g1, g2, g3, g4, g5, g6, g7, g8, g9⟩ := hs.flat.quad q
  have e : S.vec n + S.vec (S.tri.faces.fwd n) = -S.vec (S.tri.faces.fwd (S.tri.faces.fwd n)) :=
    eq_neg_of_add_eq_zero_left g6
  obtain ⟨k, rfl⟩ : ∃ k, fuel = k + 1 := ⟨fuel - 1, by omega⟩
  unfold FlatTri.insertAt
  rw [if_neg (by omega)]
  have o := hs.flat.oriented n (hs.nb n hn')
  rcases hv with hv | hv
  · have hi : S.inSector A n v = true := by
      rw [inSector_iff, q.ve, g3]
      refine ⟨hv.side1.not_gt, ?_⟩
      have := hv.side3
      unfold Tri.nextInFace at this
      rw [e] at this
      simp only [cross, neg_x, neg_y, sub_x, sub_y] at this ⊢
      linarith
    have c1 : ccw A (S.vec n) v = .counterclockwise := by rw [ccw_eq, ccwExact_ccw]; exact hv.side1
    have c2 : ccw A (S.vec (S.tri.nextInFace n)) (v - S.vec n) = .counterclockwise := by
      rw [ccw_eq, ccwExact_ccw]; exact hv.side2
    have hse : insertSearch A dbg v (k + 1) S n = some (.ok (S, [], n)) := by
      unfold insertSearch
      simp [c1, c2]
    obtain ⟨S', f, g, a, b, c, i1, -⟩ := face_correct A h hn hv
    rw [hi, hse]
    simp [c1, i1]
  · have c0 : cross (S.vec n) v = 0 := hv.collinear
    have hu : S.vec n ≠ 0 := hs.flat.vec_ne (hs.nb n hn')
    have hi : S.inSector A n v = true := by
      rw [inSector_iff, q.ve, g3]
      refine ⟨by rw [c0]; exact lt_irrefl _, ?_⟩
      rw [← e]
      have hf := hv.forward
      generalize S.vec (S.tri.faces.fwd n) = w at *
      generalize S.vec n = u at *
      have e : cross (u + w) v * dot u u = -(cross u w * dot u v) := by
        simp only [cross, dot, add_x, add_y] at *
        linear_combination ((u.x + w.x) * u.x + (u.y + w.y) * u.y) * c0
      have := mul_pos o hf
      by_contra hc
      have := mul_nonneg (not_lt.1 hc) (dot_self_pos hu).le
      linarith
    have c1 : ccw A (S.vec n) v = .collinear := by rw [ccw_eq, ccwExact_collinear]; exact c0
    have c2 : insertCheck A v (S.vec n) = .ok () := by
      have : orientation A (S.vec n - v) v = .same := by
        rw [orientation_same]
        have h1 := hv.forward
        have h2 := hv.remaining
        generalize S.vec n = u at *
        have e : dot (u - v) v * dot u u = dot u v * dot u (u - v) := by
          simp only [cross, dot, sub_x, sub_y] at *
          linear_combination (-(u.x * v.y - u.y * v.x)) * c0
        have := mul_pos h1 h2
        rw [← e] at this
        exact pos_of_mul_pos_left this (dot_self_pos hu).le
      unfold insertCheck
      rw [this]
    have hse : insertSearch A dbg v (k + 1) S n = some (.ok (S, [], n)) := by
      unfold insertSearch
      simp [c1, c2]
    obtain ⟨S', f, g, k', l, a, c, d, i1, -⟩ := edge_correct A h hn hv
    rw [hi, hse]
    simp [c1, i1]

/-- A vector that does not start in the sector of the half edge is rejected. -/
theorem outside_rejected (A : Option (Approx T K)) (dbg : Bool) {S : FlatTri T} {n : HE} (hn : n ∈ S.tri.halfEdges)
    {v : Vec T} (hv : ¬ (0 ≤ cross (S.vec n) v ∧ cross (S.vec (S.tri.nextAtVertex n)) v < 0)) (fuel : ℕ) :
    S.insertAt A dbg fuel n v = some (.error .invalidArgument) := by
  unfold FlatTri.insertAt
  rw [if_neg (by rw [mem_halfEdges] at hn; omega), if_pos]
  rw [Bool.not_eq_true', ← Bool.not_eq_true, inSector_iff, not_lt]
  exact hv

/-! ### Concrete cases -/

theorem bigTorus_closed : Closed true bigTorus := ⟨torus_reachable true, bigTorus_isFlat, by decide⟩

example : EndsInFace bigTorus 0 ⟨2, 1⟩ ∧ EndsOnEdge bigTorus 0 ⟨2, 0⟩ :=
  ⟨⟨by decide, by decide, by decide⟩, ⟨by decide, by decide, by decide⟩⟩

/-- The vector `(5, 1)` leaves the face of the half edge `0`; three flips are needed. -/
example : (bigTorus.insertAt (none : Option (Approx ℤ ℚ)) true 10 0 ⟨5, 1⟩).bind
    (fun r => r.toOption.map fun R => (R.flips, R.inFace, R.at_, R.codomain.vec 7)) = some ([2, 4, 3], true, 0, ⟨5, 1⟩) := by
  decide +kernel

/-- After one flip, the vector `(4, 2)` ends on the half edge that has been flipped. -/
example : (bigTorus.insertAt (none : Option (Approx ℤ ℚ)) true 10 0 ⟨4, 2⟩).bind
    (fun r => r.toOption.map fun R => (R.flips, R.inFace, R.at_, R.nextTo, R.codomain.vec 7)) =
      some ([2], false, 3, 0, ⟨4, 2⟩) := by
  decide +kernel

end Verif.C86
