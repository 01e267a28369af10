import Verif.Model.InsertVertex
import Verif.Props.C31
import Verif.Props.C86

/-!
# C149: a vertex can be inserted at each point that has coordinates in the base ring
-/

namespace Verif.C149

open Verif Spec Tri FlatTri Examples Vec

variable {T : Type} [CommRing T] [LinearOrder T] [IsStrictOrderedRing T]
variable {K : Type} [Field K] [LinearOrder K] [IsStrictOrderedRing K]

/-- A point that is a vertex already is rejected. -/
theorem vertex_rejected (A : Option (Approx T K)) {dbg : Bool} {S : FlatTri T} (h : Closed dbg S) {d p : Point T}
    (hp : C30.Created dbg S d p) {e : HE} (he : e ∈ S.tri.halfEdges) (hv : SamePosition S d ⟨e, 1, 0, 0⟩)
    (div : T → T → Option T) (fuel : ℕ) : S.insert A dbg div fuel p = some (.error .invalidArgument) := by
  obtain ⟨v, h1, -⟩ := h.shut.source (mem_halfEdges.1 he)
  have := (C30.vertex_correct h hp v).2 ⟨e, mem_halfEdges.1 he, h1, hv⟩
  unfold FlatTri.insert
  rw [this]
  rfl

/-- The weights of a point with respect to the half edge next to which it is inserted. -/
theorem side_coordinates {dbg : Bool} {S : FlatTri T} (h : Closed dbg S) {p : Point T} (hp : Normal S p) (hb : p.b ≠ 0) :
    insertSide p < S.tri.size ∧ ∃ a b c, S.coordinates p (insertSide p) = .ok (a, b, c) ∧
      SamePosition S p ⟨insertSide p, a, b, c⟩ ∧ 0 < a ∧ 0 < b ∧ 0 ≤ c := by
  have hs := h.shut
  have hb' : 0 < p.b := lt_of_le_of_ne hp.nonneg.2.1 (Ne.symm hb)
  have ha : 0 < p.a := by rcases hp.normal with k | k; exacts [k.1, k.2]
  have self : S.coordinates p p.face = .ok (p.a, p.b, p.c) := by
    unfold coordinates pointIsIn sides rotated
    simp
  have hcase : insertSide p = p.face ∨ insertSide p = neg p.face ∧ p.c = 0 := by
    unfold insertSide edgeOf
    split_ifs with hc
    · exact .inl rfl
    · show (Edge.ofHalfEdge p.face).positive = _ ∨ _
      unfold Edge.positive Edge.ofHalfEdge
      dsimp only
      split_ifs
      · exact .inl rfl
      · exact .inr ⟨rfl, by simpa using hc⟩
  rcases hcase with e | ⟨e, hc⟩
  · rw [e]
    exact ⟨hp.lt, p.a, p.b, p.c, self, .refl _, ha, hb', hp.nonneg.2.2⟩
  · rw [e]
    have hlt := hs.neg_lt hp.lt
    refine ⟨hlt, p.b, p.a, 0, ?_, ?_, hb', ha, le_rfl⟩
    · have hin : S.pointIsIn p (neg p.face) = true := by
        unfold pointIsIn sides pointIsOn
        rw [vertexOf_none hb]
        simp [edgeOf, hc, ofHalfEdge_eq]
      have hout : (S.sides (neg p.face)).any (fun side => decide (side = p.face)) = false := by
        have q := hs.quad hp.lt
        obtain ⟨⟨-, -, n1, n2, n3⟩, -⟩ := q.ne
        unfold sides Tri.nextInFace Tri.previousInFace
        rw [hs.prev]
        simp [n1.symm, n2.symm, n3.symm]
      unfold coordinates
      rw [hin, hout]
      simp [sides, acrossSide, rotated, hc]
    · obtain ⟨x, a, b, c⟩ := p
      dsimp only at hc ⊢
      subst hc
      exact .glue

theorem cartesian_scaled {dbg : Bool} {S : FlatTri T} (h : Closed dbg S) {div : T → T → Option T} (hdiv : TrueDivision div)
    {n : HE} (hn : n < S.tri.size) {a b c : T} (hs : a + b + c ≠ 0) {v : Vec T}
    (hv : S.cartesian div ⟨n, a, b, c⟩ = .ok v) :
    (a + b + c) • v = b • S.vec n + c • (S.vec n + S.vec (S.tri.faces.fwd n)) := by
  have g6 := h.shut.flat.closed n (h.shut.nb _ hn)
  have e1 : S.vec (S.tri.faces.fwd (S.tri.faces.fwd n)) = -(S.vec n + S.vec (S.tri.faces.fwd n)) := by
    rw [eq_neg_iff_add_eq_zero, add_comm]
    exact g6
  unfold FlatTri.cartesian Tri.previousInFace at hv
  dsimp only at hv
  rw [h.shut.prev, e1, neg_neg] at hv
  split at hv
  · rename_i x y hx hy
    cases hv
    rw [hdiv _ _ hs] at hx hy
    ext
    · rw [smul_x, mul_comm, hx, add_x, add_x, add_comm]
    · rw [smul_y, mul_comm, hy, add_y, add_y, add_comm]
  · cases hv

theorem ends_in_face {dbg : Bool} {S : FlatTri T} (h : Closed dbg S) {n : HE} (hn : n < S.tri.size) {a b c : T} (ha : 0 < a)
    (hb : 0 < b) (hc : 0 < c) {v : Vec T}
    (hv : (a + b + c) • v = b • S.vec n + c • (S.vec n + S.vec (S.tri.faces.fwd n))) : EndsInFace S n v := by
  have g6 := h.shut.flat.closed n (h.shut.nb _ hn)
  have e1 : S.vec (S.tri.faces.fwd (S.tri.faces.fwd n)) = -(S.vec n + S.vec (S.tri.faces.fwd n)) := by
    rw [eq_neg_iff_add_eq_zero, add_comm]
    exact g6
  have o := h.shut.flat.oriented n (h.shut.nb n hn)
  have s : 0 < a + b + c := by positivity
  obtain ⟨vx, vy⟩ := Vec.ext_iff.1 hv
  simp only [smul_x, smul_y, add_x, add_y] at vx vy
  have key : ∀ {x y : T}, 0 < x → (a + b + c) * y = x * cross (S.vec n) (S.vec (S.tri.faces.fwd n)) → 0 < y := by
    intro x y hx e
    exact pos_of_mul_pos_right (e ▸ mul_pos hx o) s.le
  refine ⟨key hc ?_, key ha ?_, key hb ?_⟩
  · simp only [cross]
    linear_combination (S.vec n).x * vy - (S.vec n).y * vx
  · unfold Tri.nextInFace
    simp only [cross, sub_x, sub_y]
    linear_combination (S.vec (S.tri.faces.fwd n)).x * vy - (S.vec (S.tri.faces.fwd n)).y * vx
  · unfold Tri.nextInFace
    rw [e1]
    simp only [cross, sub_x, sub_y, add_x, add_y, neg_x, neg_y]
    linear_combination (-(S.vec n).x - (S.vec (S.tri.faces.fwd n)).x) * vy + ((S.vec n).y + (S.vec (S.tri.faces.fwd n)).y) * vx

theorem ends_on_edge {dbg : Bool} {S : FlatTri T} (h : Closed dbg S) {n : HE} (hn : n < S.tri.size) {a b : T} (ha : 0 < a)
    (hb : 0 < b) {v : Vec T} (hv : (a + b) • v = b • S.vec n) : EndsOnEdge S n v := by
  have hu : S.vec n ≠ 0 := h.shut.flat.vec_ne (h.shut.nb n hn)
  have o := dot_self_pos hu
  have s : 0 < a + b := by positivity
  obtain ⟨vx, vy⟩ := Vec.ext_iff.1 hv
  simp only [smul_x, smul_y] at vx vy
  have key : ∀ {x y : T}, 0 < x → (a + b) * y = x * dot (S.vec n) (S.vec n) → 0 < y := by
    intro x y hx e
    exact pos_of_mul_pos_right (e ▸ mul_pos hx o) s.le
  refine ⟨?_, key hb ?_, key ha ?_⟩
  · have : (a + b) * cross (S.vec n) v = 0 := by
      simp only [cross]
      linear_combination (S.vec n).x * vy - (S.vec n).y * vx
    exact (mul_eq_zero.1 this).resolve_left s.ne'
  · simp only [dot]
    linear_combination (S.vec n).x * vx + (S.vec n).y * vy
  · simp only [dot, sub_x, sub_y]
    linear_combination -(S.vec n).x * vx - (S.vec n).y * vy

/-- A point that is not a vertex is in the interior of a face or on an edge; if it has coordinates in the base ring there, then
`insert` subdivides that face or the faces at that edge, such that the new vertex is at the position of the point, and otherwise
an error is reported. No edges are flipped. -/
theorem insert_correct {f : T →+* ℝ} (hf : StrictMono f) (A : Option (Approx T K)) {dbg : Bool} {S : FlatTri T}
    (h : Closed dbg S) {div : T → T → Option T} (hdiv : TrueDivision div) {d p : Point T} (hp : C30.Created dbg S d p)
    (hv : ∀ e ∈ S.tri.halfEdges, ¬ SamePosition S d ⟨e, 1, 0, 0⟩) {fuel : ℕ} (hfuel : 0 < fuel) :
    ∃ n ∈ S.tri.halfEdges, ∃ a b c, SamePosition S d ⟨n, a, b, c⟩ ∧
      ((∃ v R, v.map f = planePosition f S ⟨n, a, b, c⟩ ∧ S.insert A dbg div fuel p = some (.ok R) ∧
          R.flips = [] ∧ R.flipped = S ∧ Closed dbg R.codomain ∧ R.codomain.area2 = S.area2 ∧
          ((∃ f' g a b c, SubdividesFace S R.codomain n f' g a b c v) ∨
            ∃ f' g k l a c d, SubdividesEdge S R.codomain n f' g k l a c d v)) ∨
        S.insert A dbg div fuel p = some (.error .invalidArgument) ∧
          ∀ v : Vec T, v.map f ≠ planePosition f S ⟨n, a, b, c⟩) := by
  obtain ⟨hN, hsame⟩ := hp.normal h
  have hb : p.b ≠ 0 := fun hb => hv p.face (mem_halfEdges.2 hN.lt) (hsame.trans (hN.vertex h.shut hb).1)
  obtain ⟨hn, a, b, c, k1, k2, k3, k4, k5⟩ := side_coordinates h hN hb
  have hs : 0 < a + b + c := by positivity
  have hpv : S.pointVector div p (insertSide p) = S.cartesian div ⟨insertSide p, a, b, c⟩ := by
    unfold pointVector
    rw [k1]
    rfl
  refine ⟨insertSide p, mem_halfEdges.2 hn, a, b, c, hsame.trans k2, ?_⟩
  have hins : S.insert A dbg div fuel p = match S.cartesian div ⟨insertSide p, a, b, c⟩ with
    | .error err => some (.error err)
    | .ok v => S.insertAt A dbg fuel (insertSide p) v := by
    unfold FlatTri.insert
    rw [vertexOf_none hb, hpv]
    rfl
  rcases C31.cartesian_correct hf h hdiv (p := ⟨insertSide p, a, b, c⟩) hn hs.ne' with ⟨v, h3, h4⟩ | ⟨h3, h4⟩
  · rw [h3] at hins
    have hsc := cartesian_scaled h hdiv hn hs.ne' h3
    have hends : EndsInFace S (insertSide p) v ∨ EndsOnEdge S (insertSide p) v := by
      rcases k5.eq_or_lt with hc | hc
      · subst hc
        refine .inr (ends_on_edge h hn k3 k4 ?_)
        simpa using hsc
      · exact .inl (ends_in_face h hn k3 k4 hc hsc)
    obtain ⟨R, r1, r2, r3, r4⟩ := C86.inside_correct A h (mem_halfEdges.2 hn) hends hfuel
    obtain ⟨-, -, q1, q2, q3⟩ := C86.insertAt_correct h r1
    rw [r3, r4] at q3
    exact .inl ⟨v, R, h4, hins.trans r1, r2, r3, q1, q2, q3.imp (fun q => q.2.2) (fun q => q.2.2)⟩
  · rw [h3] at hins
    exact .inr ⟨hins, h4⟩

/-! ### Concrete cases -/

/-- The hypotheses are met by a point in the interior of a face. -/
example : ∃ p, C30.Created true bigTorus ⟨0, 1, 1, 1⟩ p ∧ TrueDivision C31.intDiv ∧ StrictMono (Int.castRingHom ℝ) ∧
    ∀ e ∈ bigTorus.tri.halfEdges, ¬ SamePosition bigTorus ⟨0, 1, 1, 1⟩ ⟨e, 1, 0, 0⟩ := by
  have hp : C30.Created true bigTorus ⟨0, 1, 1, 1⟩ ⟨0, 1, 1, 1⟩ := ⟨⟨by decide, by decide, by decide⟩, rfl⟩
  refine ⟨_, hp, C31.intDiv_true, fun a b hab => by simpa using hab, fun e he hs => ?_⟩
  obtain ⟨v, h1, -⟩ := C86.bigTorus_closed.shut.source (mem_halfEdges.1 he)
  have := (C30.vertex_correct C86.bigTorus_closed hp v).2 ⟨e, mem_halfEdges.1 he, h1, hs⟩
  cases this

/-- A point in the interior of a face, and a point on an edge. -/
example : ∃ p q, C30.Created true bigTorus ⟨0, 1, 1, 1⟩ p ∧ C30.Created true bigTorus ⟨1, 1, 2, 0⟩ q ∧
    (bigTorus.insert (none : Option (Approx ℤ ℚ)) true C31.intDiv 1 p).bind
      (fun r => r.toOption.map fun R => (R.inFace, R.codomain.vec 7)) = some (true, ⟨2, 1⟩) ∧
    (bigTorus.insert (none : Option (Approx ℤ ℚ)) true C31.intDiv 1 q).bind
      (fun r => r.toOption.map fun R => (R.inFace, R.codomain.vec 7)) = some (false, ⟨1, 0⟩) :=
  ⟨_, _, ⟨⟨by decide, by decide, by decide⟩, rfl⟩, ⟨⟨by decide, by decide, by decide⟩, rfl⟩, by decide +kernel, by decide +kernel⟩

end Verif.C149
