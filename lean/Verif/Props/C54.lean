import Verif.Lemmas.PointMoveVertex
import Verif.Lemmas.PointMoveExamples

/-!
# C54: Moving a point by a vector is consistent
-/

namespace Verif.C54

open Verif Spec Tri FlatTri Vec Move Examples

variable {T : Type} [CommRing T] [LinearOrder T] [IsStrictOrderedRing T]
variable {K : Type} [Field K] [LinearOrder K] [IsStrictOrderedRing K]

variable {f : T →+* ℝ} {dbg : Bool} {S : FlatTri T} {div : T → T → Option T} {d p : Point T} {v : Vec T}

theorem created (hd : Describes S d) (hp : S.normalize d = .ok p) : C30.Created dbg S d p :=
  ⟨hd, by unfold FlatTri.point; rw [if_neg (not_le.2 hd.lt)]; exact hp⟩

/-- The angle at the vertex. -/
theorem vertex_angle (hf : StrictMono f) (h : Closed dbg S) {V : Finset HE} (hp : p.face < S.tri.size) (hV : S.vertexOf p = some V) :
    ∃ N, ∀ fuel ≥ N, ∃ k, S.pointAngle fuel p = some k ∧ (k = 1 ↔ MarkedPoint f S p.face) := by
  obtain ⟨N, hN⟩ := exists_marked h hf
  refine ⟨N, fun fuel hfuel => ?_⟩
  obtain ⟨b, b1, b2⟩ := hN fuel hfuel p.face hp
  unfold pointAngle
  rw [hV]
  dsimp only
  unfold vertexOf at hV
  split at hV
  · cases hV
  unfold isMarked at b1
  rw [hV] at b1
  dsimp only at b1
  obtain ⟨k, k1, k2⟩ := Option.map_eq_some_iff.1 b1
  refine ⟨k, k1, ?_⟩
  rw [← b2]
  injection k2 with k2
  rw [← k2, decide_eq_true_eq]

/-- Moving a vertex, i.e., a point for which `vertex()` is set. If its total angle is not 2π, then an error is reported.
Otherwise, we start at the source of a half edge `e` such that `v` points into the face of `e`. We get to the resulting point by
moving in a straight line for one unit of time, where only vertices of total angle 2π are crossed. If there is another vertex on the
way, then an error is reported.

This is for directions that are not parallel to a half edge, unless all the vertices have total angle 2π. See C94 for the other
directions. (Moving by zero is C95.) Missing is the case of points that are not vertices and leave their face. -/
theorem vertex_partial (hf : StrictMono f) (A : Option (Approx T K)) (h : Closed dbg S) (hdiv : TrueDivision div)
    (elsewhere : Point T → Vec T → Option (Except Err (Point T))) (hp : C30.Created dbg S d p) {V : Finset HE}
    (hV : S.vertexOf p = some V) (hv : v ≠ 0)
    (hfree : (∀ y < S.tri.size, MarkedPoint f S y) ∨ ∀ y < S.tri.size, cross (S.vec y) v ≠ 0) :
    ∃ N, ∀ fuel ≥ N,
      (¬MarkedPoint f S p.face ∧ S.movePoint A dbg div elsewhere fuel p v = some (.error .invalidArgument)) ∨
      MarkedPoint f S p.face ∧ ∃ e ∈ V, 0 ≤ cross (S.vec e) v ∧ 0 < cross v (S.vec (S.tri.nextAtVertex e)) ∧
        ((∃ p' d', S.movePoint A dbg div elsewhere fuel p v = some (.ok p') ∧ C30.Created dbg S d' p' ∧
            Travels f S (MarkedPoint f S) (v.map f) 1 (e, 0) (d'.face, planePosition f S d')) ∨
          S.movePoint A dbg div elsewhere fuel p v = some (.error .invalidArgument) ∧
            ∃ t μ, ¬MarkedPoint f S t ∧ 0 < μ ∧ μ < 1 ∧ Travels f S (MarkedPoint f S) (v.map f) μ (e, 0) (t, 0)) := by
  obtain ⟨hn, -⟩ := hp.normal h
  have hlt := hn.lt
  obtain ⟨N1, h1⟩ := vertex_angle hf h hlt hV
  obtain ⟨N2, h2⟩ := exists_turn A h hf
  obtain ⟨N3, h3⟩ := moveImpl_sector A dbg h hf hdiv elsewhere v hfree
  have hbc : p.b = 0 ∧ p.c = 0 := by
    unfold vertexOf at hV
    split at hV
    · cases hV
    · rename_i k; push Not at k; exact k
  have ha : 0 < p.a := by
    rcases hn.normal with k | k
    · exact k.1
    · exact k.2
  refine ⟨N1 + N2 + N3, fun fuel hfuel => ?_⟩
  obtain ⟨k, k1, k2⟩ := h1 fuel (by omega)
  by_cases hk : k = 1
  · refine .inr ⟨k2.1 hk, ?_⟩
    obtain ⟨j, j1, j2⟩ := h2 fuel (by omega) p.face hlt v hv
    have hmove : S.movePoint A dbg div elsewhere fuel p v =
        S.moveImpl A dbg div elsewhere fuel fuel ⟨S.tri.nextAtVertex^[j] p.face, p.a, 0, 0⟩ v := by
      unfold movePoint
      rw [k1]
      simp only [Option.bind_some, hk, ne_eq, not_true_eq_false, if_false, hV, Option.isSome_some, if_true, j1, hbc.1, hbc.2]
    obtain ⟨o1, o2, o3⟩ := turn (V := 0) (free := fun _ => True) h.shut hf hlt (fun _ _ => True.intro) j
    have hmem : S.tri.nextAtVertex^[j] p.face ∈ V := by
      obtain ⟨W, w1, w2⟩ := h.shut.vertexOf_some hn hbc.1
      rw [hV] at w1
      injection w1 with w1
      rw [w1]
      exact (w2 _).2 o3
    obtain ⟨s1, s2⟩ := (inSector_iff A S _ v).1 j2
    refine ⟨_, hmem, not_lt.1 s1, by rw [cross_comm]; exact neg_pos.2 s2, ?_⟩
    rw [hmove]
    rcases h3 _ p.a o2 ha (.inl j2) fuel (by omega) fuel (by omega) with ⟨p', p1, -, d', p2, p3, p4⟩ | ⟨p1, t, μ, ⟨-, p2, p3, p4⟩, p5⟩
    · exact .inl ⟨p', d', p1, created p2 p3, p4⟩
    · exact .inr ⟨p1, t, μ, p5, p2, p3, p4⟩
  · refine .inl ⟨fun hm => hk (k2.2 hm), ?_⟩
    unfold movePoint
    rw [k1]
    simp [hk]

/-- The vertex of a torus moves across several faces, in a direction that is parallel to no half edge and along a half edge. -/
example : C30.Created true bigTorus ⟨0, 1, 0, 0⟩ ⟨0, 1, 0, 0⟩ ∧ (bigTorus.vertexOf ⟨0, 1, 0, 0⟩).isSome ∧
    (∀ y < bigTorus.tri.size, MarkedPoint (Int.castRingHom ℝ) bigTorus y) ∧
    bigTorus.movePoint (none : Option (Approx ℤ ℚ)) true C31.intDiv (fun _ _ => none) 30 ⟨0, 1, 0, 0⟩ ⟨7, 3⟩ = some (.ok ⟨1, 3, 6, 0⟩) ∧
    bigTorus.movePoint (none : Option (Approx ℤ ℚ)) true C31.intDiv (fun _ _ => none) 30 ⟨0, 1, 0, 0⟩ ⟨7, 0⟩ = some (.ok ⟨0, 6, 3, 0⟩) :=
  ⟨⟨⟨by decide, by decide, by decide⟩, rfl⟩, by decide, bigTorus_marked, by decide +kernel, by decide +kernel⟩

/-- A marked vertex moves on a surface with another vertex. -/
example : C30.Created true markedEll ⟨22, 1, 0, 0⟩ ⟨22, 1, 0, 0⟩ ∧ (markedEll.vertexOf ⟨22, 1, 0, 0⟩).isSome ∧
    (∀ y < markedEll.tri.size, cross (markedEll.vec y) ⟨1, 5⟩ ≠ 0) ∧
    markedEll.movePoint (none : Option (Approx ℤ ℚ)) true C31.intDiv (fun _ _ => none) 30 ⟨22, 1, 0, 0⟩ ⟨1, 5⟩ = some (.ok ⟨17, 9, 0, 0⟩) :=
  ⟨⟨⟨by decide, by decide, by decide⟩, rfl⟩, by decide, by decide +kernel, by decide +kernel⟩

/-- Moving a point that is not a vertex. We write the point in coordinates of a face such that `v` does not point out of the face if the
point is on its boundary. If these coordinates are not in the ring, an error is reported. Otherwise, if the point stays in
that face, then the result is the point at the sum of the vectors.

If the point does not stay in the face, then the result is what is computed by inserting a vertex; this is not modelled, the result is given by `elsewhere`. -/
theorem face_partial (hf : StrictMono f) (A : Option (Approx T K)) (h : Closed dbg S) (hdiv : TrueDivision div)
    (elsewhere : Point T → Vec T → Option (Except Err (Point T))) (hp : C30.Created dbg S d p)
    (hV : S.vertexOf p = none) (v : Vec T) (fuel : ℕ) :
    ∃ q, Describes S q ∧ SamePosition S p q ∧ (q.c = 0 → 0 ≤ cross (S.vec q.face) v) ∧
      (S.movePoint A dbg div elsewhere (fuel + 1) p v = some (.error .invalidArgument) ∧ (∀ xy : Vec T, xy.map f ≠ planePosition f S q) ∨
      InTriangle f S q.face (planePosition f S q + v.map f) ∧ (∃ p' d', S.movePoint A dbg div elsewhere (fuel + 1) p v = some (.ok p') ∧
        C30.Created dbg S d' p' ∧ d'.face = q.face ∧ planePosition f S d' = planePosition f S q + v.map f) ∨
      ¬InTriangle f S q.face (planePosition f S q + v.map f) ∧ S.movePoint A dbg div elsewhere (fuel + 1) p v = elsewhere q v) := by
  obtain ⟨hn, -⟩ := hp.normal h
  have hangle : S.pointAngle (fuel + 1) p = some 1 := by
    unfold pointAngle
    rw [hV]
  have hbc : p.b ≠ 0 ∨ p.c ≠ 0 := by
    unfold vertexOf at hV
    split at hV
    · assumption
    · rename_i k
      push Not at k
      obtain ⟨W, w1, -⟩ := h.shut.source hn.lt
      rw [w1] at hV
      cases hV
  obtain ⟨ha, hb⟩ : p.a ≠ 0 ∧ p.b ≠ 0 := by
    rcases hn.normal with k | k
    · exact ⟨k.1.ne', k.2.1.ne'⟩
    · exact ⟨k.2.ne', hbc.resolve_right (not_not.2 k.1)⟩
  -- the representation after the first change of sides
  have hstart : ∃ q, S.movePoint A dbg div elsewhere (fuel + 1) p v = S.moveImpl A dbg div elsewhere (fuel + 1) (fuel + 1) q v ∧
      Describes S q ∧ SamePosition S p q ∧ q.a ≠ 0 ∧ q.b ≠ 0 := by
    unfold movePoint
    rw [hangle]
    simp only [Option.bind_some, ne_eq, not_true_eq_false, if_false, hV, Option.isSome_none, Bool.false_eq_true]
    split_ifs with hk
    · have hc : p.c = 0 := by
        by_contra hc
        unfold edgeOf at hk
        rw [if_pos hc] at hk
        exact absurd hk.1 (by decide)
      refine ⟨_, rfl, ⟨h.shut.neg_lt hn.lt, ⟨hn.nonneg.2.1, hn.nonneg.1, hn.nonneg.2.2⟩, ?_⟩, ?_, hb, ha⟩
      · have := hn.pos
        dsimp only
        rwa [add_comm p.b]
      · obtain ⟨e, a, b, c⟩ := p
        dsimp only at hc
        subst hc
        exact .glue
    · exact ⟨p, rfl, hn.toDescribes, .refl _, ha, hb⟩
  obtain ⟨q, e1, e2, e3, e4, e5⟩ := hstart
  obtain ⟨k1, k2, k3, k4⟩ := moveImpl_face A (dbg' := dbg) h hf hdiv elsewhere e2 e4 e5 v (fuel + 1) fuel
  refine ⟨S.faceInto A q v, k2, e3.trans k3, fun hc => k4 ?_, ?_⟩
  · by_contra hk
    unfold faceInto at hc
    rw [if_pos hk] at hc
    exact hk hc
  · rw [e1]
    rcases k1 with k1 | ⟨k1, p', d', k5, k6, k7, k8, k9⟩ | k1
    · exact .inl k1
    · exact .inr (.inl ⟨k1, p', d', k5, created k6 k7, k8, k9⟩)
    · exact .inr (.inr k1)

/-- Points in the same triangle are at the same position if they are at the same position in the plane. -/
theorem same_of_plane (hf : StrictMono f) (h : S.Shut) {p q : Point T} (hp : Describes S p) (hq : Describes S q) (hface : p.face = q.face)
    (hpos : planePosition f S p = planePosition f S q) : SamePosition S p q := by
  obtain ⟨e, a, b, c⟩ := p
  obtain ⟨e', a', b', c'⟩ := q
  dsimp only at hface
  subst hface
  have h1 := hp.pos
  have h2 := hq.pos
  dsimp only at h1 h2
  have ho := h.flat.oriented e (h.nb e hp.lt)
  have h1' : 0 < f (a + b + c) := by rw [← map_zero f]; exact hf h1
  have h2' : 0 < f (a' + b' + c') := by rw [← map_zero f]; exact hf h2
  have ho' : 0 < f (cross (S.vec e) (S.vec (S.tri.faces.fwd e))) := by rw [← map_zero f]; exact hf ho
  unfold planePosition Tri.nextInFace at hpos
  rw [Vec.ext_iff] at hpos
  simp only [smul_x, smul_y, add_x, add_y, Vec.map] at hpos
  obtain ⟨k1, k2⟩ := hpos
  have k1' : f ((a' + b' + c') * (b * (S.vec e).x + c * ((S.vec e).x + (S.vec (S.tri.faces.fwd e)).x))) =
      f ((a + b + c) * (b' * (S.vec e).x + c' * ((S.vec e).x + (S.vec (S.tri.faces.fwd e)).x))) := by
    field_simp at k1
    simp only [map_mul, map_add] at k1 ⊢
    linear_combination k1
  have k2' : f ((a' + b' + c') * (b * (S.vec e).y + c * ((S.vec e).y + (S.vec (S.tri.faces.fwd e)).y))) =
      f ((a + b + c) * (b' * (S.vec e).y + c' * ((S.vec e).y + (S.vec (S.tri.faces.fwd e)).y))) := by
    field_simp at k2
    simp only [map_mul, map_add] at k2 ⊢
    linear_combination k2
  have k1 := hf.injective k1'
  have k2 := hf.injective k2'
  simp only [cross] at ho
  have hc : (a' + b' + c') * c = (a + b + c) * c' := by
    refine mul_right_cancel₀ ho.ne' ?_
    linear_combination (S.vec e).x * k2 - (S.vec e).y * k1
  have hb : (a' + b' + c') * b = (a + b + c) * b' := by
    refine mul_right_cancel₀ ho.ne' ?_
    linear_combination ((S.vec e).y + (S.vec (S.tri.faces.fwd e)).y) * k1 - ((S.vec e).x + (S.vec (S.tri.faces.fwd e)).x) * k2
  exact SamePosition.proportional h2 h1 (by linear_combination -hb - hc) hb hc

theorem normalizeLoop_c {n : ℕ} {q r : Point T} (hr : S.normalizeLoop n q = .ok r) : r.c = 0 := by
  induction n generalizing q with
  | zero => cases hr
  | succ n ih =>
    unfold normalizeLoop at hr
    split at hr
    · exact ih hr
    · rename_i k
      push Not at k
      injection hr with hr
      rw [← hr]
      exact k.1

/-- A point that is not on an edge has not been changed. -/
theorem created_inner (hp : C30.Created dbg S d p) (he : edgeOf p = none) : p = d := by
  have hc : p.c ≠ 0 := by
    unfold edgeOf at he
    split at he
    · assumption
    · cases he
  have h2 := hp.2
  unfold FlatTri.point at h2
  rw [if_neg (not_le.2 hp.1.lt)] at h2
  unfold FlatTri.normalize at h2
  dsimp only at h2
  rw [if_neg hp.1.pos.ne', if_neg (by rw [not_or, not_or]; exact ⟨hp.1.nonneg.1.not_gt, hp.1.nonneg.2.1.not_gt, hp.1.nonneg.2.2.not_gt⟩),
    if_neg hp.1.pos.not_gt] at h2
  split at h2
  · injection h2 with h2
    exact h2.symm
  · exact absurd (normalizeLoop_c h2) hc

/-- Moving a point that is not on an edge inside its face. -/
theorem inside_partial (hf : StrictMono f) (A : Option (Approx T K)) (h : Closed dbg S) (hdiv : TrueDivision div)
    (elsewhere : Point T → Vec T → Option (Except Err (Point T))) (hp : C30.Created dbg S d p) (he : edgeOf p = none)
    (hring : ∃ xy : Vec T, xy.map f = planePosition f S p) (hin : InTriangle f S p.face (planePosition f S p + v.map f)) (fuel : ℕ) :
    ∃ p' d', S.movePoint A dbg div elsewhere (fuel + 1) p v = some (.ok p') ∧ C30.Created dbg S d' p' ∧ d'.face = p.face ∧
      planePosition f S d' = planePosition f S p + v.map f := by
  obtain ⟨hn, -⟩ := hp.normal h
  have hc : p.c ≠ 0 := by
    unfold edgeOf at he
    split at he
    · assumption
    · cases he
  obtain ⟨ha, hb, -⟩ := hn.inner hc
  have hV : S.vertexOf p = none := vertexOf_none hb.ne'
  have hmove : S.movePoint A dbg div elsewhere (fuel + 1) p v = S.moveImpl A dbg div elsewhere (fuel + 1) (fuel + 1) p v := by
    unfold movePoint pointAngle
    rw [hV]
    simp [he]
  obtain ⟨k1, -⟩ := moveImpl_face A (dbg' := dbg) h hf hdiv elsewhere hn.toDescribes ha.ne' hb.ne' v (fuel + 1) fuel
  have hq : S.faceInto A p v = p := by
    unfold faceInto
    rw [if_pos hc]
  rw [hq, ← hmove] at k1
  rcases k1 with k1 | ⟨-, p', d', k5, k6, k7, k8, k9⟩ | k1
  · obtain ⟨xy, hxy⟩ := hring
    exact absurd hxy (k1.2 xy)
  · exact ⟨p', d', k5, created k6 k7, k8, k9⟩
  · exact absurd hin k1.1

/-- Moving by `v` and then by `w` is the same as moving by `v + w`. This is for points inside a face that do not leave that
face, where the intermediate point is not on an edge. -/
theorem add_partial (hf : StrictMono f) (A : Option (Approx T K)) (h : Closed dbg S) (hdiv : TrueDivision div)
    (elsewhere : Point T → Vec T → Option (Except Err (Point T))) (hp : C30.Created dbg S d p) (he : edgeOf p = none)
    (hring : ∃ xy : Vec T, xy.map f = planePosition f S p) (hin : InTriangle f S p.face (planePosition f S p + v.map f)) {w : Vec T}
    (hin' : InTriangle f S p.face (planePosition f S p + (v + w).map f)) (fuel : ℕ) {p' : Point T}
    (hp' : S.movePoint A dbg div elsewhere (fuel + 1) p v = some (.ok p')) (he' : edgeOf p' = none) :
    ∃ q r, S.movePoint A dbg div elsewhere (fuel + 1) p' w = some (.ok q) ∧ S.movePoint A dbg div elsewhere (fuel + 1) p (v + w) = some (.ok r) ∧
      S.pointEq q r = .ok true := by
  obtain ⟨p'', d', k1, k2, k3, k4⟩ := inside_partial hf A h hdiv elsewhere hp he hring hin fuel
  rw [hp'] at k1
  injection k1 with k1
  injection k1 with k1
  subst k1
  have hd := created_inner k2 he'
  subst hd
  have hadd : planePosition f S p' + w.map f = planePosition f S p + (v + w).map f := by
    rw [k4, show (v + w).map f = v.map f + w.map f by
      ext
      · simp only [Vec.map, add_x, map_add]
      · simp only [Vec.map, add_y, map_add], add_assoc]
  have hring' : ∃ xy : Vec T, xy.map f = planePosition f S p' := by
    obtain ⟨xy, hxy⟩ := hring
    refine ⟨xy + v, ?_⟩
    rw [k4, ← hxy]
    ext
    · simp only [Vec.map, add_x, map_add]
    · simp only [Vec.map, add_y, map_add]
  obtain ⟨q, dq, q1, q2, q3, q4⟩ := inside_partial (v := w) hf A h hdiv elsewhere k2 he' hring' (by rw [k3, hadd]; exact hin') fuel
  obtain ⟨r, dr, r1, r2, r3, r4⟩ := inside_partial (v := v + w) hf A h hdiv elsewhere hp he hring hin' fuel
  refine ⟨q, r, q1, r1, ?_⟩
  obtain ⟨t, t1, t2⟩ := C30.eq_correct h q2 r2
  rw [t1, t2.2 (same_of_plane hf h.shut q2.1 r2.1 (by rw [q3, r3, k3]) (by rw [q4, r4, hadd]))]

/-- The hypotheses are met for the point at (3, 2) in a torus that moves by (0, -1) and then by (1, 2). -/
example (fuel : ℕ) : ∃ q r,
    wideTorus.movePoint (none : Option (Approx ℤ ℚ)) true C31.intDiv (fun _ _ => none) (fuel + 1) ⟨0, 4, 8, 4⟩ ⟨1, 2⟩ = some (.ok q) ∧
    wideTorus.movePoint (none : Option (Approx ℤ ℚ)) true C31.intDiv (fun _ _ => none) (fuel + 1) ⟨0, 1, 1, 2⟩ (⟨0, -1⟩ + ⟨1, 2⟩) = some (.ok r) ∧
    wideTorus.pointEq q r = .ok true := by
  have hpos : planePosition (Int.castRingHom ℝ) wideTorus ⟨0, 1, 1, 2⟩ = ⟨3, 2⟩ := by
    have h0 : wideTorus.vec 0 = ⟨4, 0⟩ := rfl
    have h1 : wideTorus.vec (wideTorus.tri.nextInFace 0) = ⟨0, 4⟩ := rfl
    unfold planePosition
    dsimp only
    rw [h0, h1]
    ext <;> simp [Vec.map] <;> norm_num
  have hin : ∀ w : Vec ℝ, InTriangle (Int.castRingHom ℝ) wideTorus 0 w ↔ 0 ≤ w.y ∧ w.x ≤ 4 ∧ w.y ≤ w.x := by
    intro w
    have h0 : wideTorus.vec 0 = ⟨4, 0⟩ := rfl
    have h1 : wideTorus.vec (wideTorus.tri.nextInFace 0) = ⟨0, 4⟩ := rfl
    have h2 : wideTorus.vec (wideTorus.tri.nextInFace (wideTorus.tri.nextInFace 0)) = ⟨-4, -4⟩ := rfl
    unfold InTriangle
    rw [h0, h1, h2]
    simp only [Vec.map, cross, sub_x, sub_y, eq_intCast]
    push_cast
    constructor <;> intro ⟨k1, k2, k3⟩ <;> refine ⟨?_, ?_, ?_⟩ <;> linarith
  refine add_partial (d := ⟨0, 1, 1, 2⟩) (p := ⟨0, 1, 1, 2⟩) (f := Int.castRingHom ℝ) Int.cast_strictMono none ⟨torus_reachable true, wideTorus_isFlat, by decide⟩
    C31.intDiv_true _ ⟨⟨by decide, by decide, by decide⟩, rfl⟩ rfl ⟨⟨3, 2⟩, ?_⟩ ?_ ?_ fuel (p' := ⟨0, 4, 8, 4⟩) rfl rfl
  · rw [hpos]
    ext <;> simp [Vec.map]
  · rw [hpos]
    refine (hin _).2 ?_
    simp only [Vec.map, add_x, add_y, eq_intCast]
    norm_num
  · rw [hpos]
    refine (hin _).2 ?_
    simp only [Vec.map, add_x, add_y, eq_intCast]
    norm_num

end Verif.C54
