import Verif.Lemmas.InsertPoint
import Verif.Spec.SplitPoint

/-!
# Lemmas about points when a vertex is inserted on an edge
-/

namespace Verif.FlatTri

open Verif Spec Tri Vec

variable {T : Type} [CommRing T] [LinearOrder T] [IsStrictOrderedRing T]

/-- One of the faces at the edge. The face `(n f g)` with corners `A`, `B`, `C` has been cut into the faces `(f -d c)`
and `(g a d)` where `V` is between `A` and `B`, `a` goes from `A` to `V`, `c` from `V` to `B`, and `d` from `V` to `C`. -/
structure Cut (S S' : FlatTri T) (n f g a c d : HE) (v : Vec T) : Prop where
  shut : S.Shut
  shut' : S'.Shut
  lt : n < S.tri.size ∧ f < S.tri.size ∧ g < S.tri.size
  lt' : f < S'.tri.size ∧ g < S'.tri.size ∧ d < S'.tri.size ∧ neg d < S'.tri.size
  fn : S.tri.faces.fwd n = f
  ff : S.tri.faces.fwd f = g
  fg : S.tri.faces.fwd g = n
  gf : S'.tri.faces.fwd f = neg d
  gd' : S'.tri.faces.fwd (neg d) = c
  gc : S'.tri.faces.fwd c = f
  gg : S'.tri.faces.fwd g = a
  ga : S'.tri.faces.fwd a = d
  gd : S'.tri.faces.fwd d = g
  vd : S'.vec d = S.vec n + S.vec f - v
  vc : S'.vec c = S.vec n - v
  va : S'.vec a = v
  vf : S'.vec f = S.vec f
  vg : S'.vec g = S.vec g
  line : cross (S.vec n) v = 0

namespace Cut

variable {S S' : FlatTri T} {n f g a c d : HE} {v : Vec T}

theorem closed (h : Cut S S' n f g a c d v) : S.vec n + S.vec f + S.vec g = 0 := by
  have := h.shut.flat.closed n (h.shut.nb n h.lt.1)
  rwa [h.fn, h.ff] at this

/-- The two parts and the whole have positive area. -/
theorem lefts (h : Cut S S' n f g a c d v) : 0 < cross (S.vec f) (v - S.vec n) ∧ 0 < cross (S.vec g) v ∧
    0 < cross (S.vec n) (S.vec f) ∧ cross (S.vec f) (v - S.vec n) + cross (S.vec g) v = cross (S.vec n) (S.vec f) := by
  have o1 := h.shut'.flat.oriented f (h.shut'.nb f h.lt'.1)
  have o2 := h.shut'.flat.oriented g (h.shut'.nb g h.lt'.2.1)
  have o3 := h.shut.flat.oriented n (h.shut.nb n h.lt.1)
  rw [h.gf, h.shut'.flat.odd d h.lt'.2.2.1, h.vd, h.vf] at o1
  rw [h.gg, h.va, h.vg] at o2
  rw [h.fn] at o3
  have e : S.vec g = -(S.vec n + S.vec f) := by rw [eq_neg_iff_add_eq_zero, add_comm]; exact h.closed
  have hl := h.line
  refine ⟨?_, o2, o3, ?_⟩
  · simp only [cross, neg_x, neg_y, add_x, add_y, sub_x, sub_y] at o1 ⊢
    linarith
  · rw [e]
    simp only [cross, neg_x, neg_y, add_x, add_y, sub_x, sub_y] at hl ⊢
    linear_combination (-1 : T) * hl

/-- The source of `n` in terms of the face `(C, V, B)`. -/
theorem crossed1 (h : Cut S S' n f g a c d v) : S'.crossed ⟨d, 0, 0, 1⟩ =
    (0, cross (S.vec n) (S.vec f), -cross (S.vec g) v) := by
  have hp : S'.tri.faces.inv (neg d) = f := by rw [← h.gf, h.shut'.flat.coh.hf.left]
  have e : S.vec g = -(S.vec n + S.vec f) := by rw [eq_neg_iff_add_eq_zero, add_comm]; exact h.closed
  have hl := h.line
  unfold FlatTri.crossed Tri.nextInFace Tri.previousInFace
  simp only
  rw [hp, h.gd', h.gd, h.vf, h.vg, h.vc, e]
  simp only [neg_x, neg_y, sub_x, sub_y, add_x, add_y, cross, Prod.mk.injEq] at hl ⊢
  refine ⟨?_, ?_, ?_⟩
  · linear_combination (-1 : T) * hl
  · ring
  · ring

/-- The target of `n` in terms of the face `(V, C, A)`. -/
theorem crossed2 (h : Cut S S' n f g a c d v) : S'.crossed ⟨neg d, 0, 0, 1⟩ =
    (cross (S.vec n) (S.vec f), 0, -cross (S.vec f) (v - S.vec n)) := by
  have hp : S'.tri.faces.inv d = a := by rw [← h.ga, h.shut'.flat.coh.hf.left]
  have e : S.vec g = -(S.vec n + S.vec f) := by rw [eq_neg_iff_add_eq_zero, add_comm]; exact h.closed
  have hl := h.line
  unfold FlatTri.crossed Tri.nextInFace Tri.previousInFace
  simp only [neg_neg']
  rw [hp, h.gd', h.gd, h.va, h.vg, h.vc, e]
  simp only [neg_x, neg_y, sub_x, sub_y, add_x, add_y, cross, Prod.mk.injEq] at hl ⊢
  refine ⟨?_, ?_, ?_⟩
  · ring
  · linear_combination (-1 : T) * hl
  · ring

/-- The new vertex divides the side. -/
theorem ratio (h : Cut S S' n f g a c d v) : cross (S.vec n) (S.vec f) • v = cross (S.vec g) v • S.vec n := by
  have e : S.vec g = -(S.vec n + S.vec f) := by rw [eq_neg_iff_add_eq_zero, add_comm]; exact h.closed
  have hl := h.line
  rw [e]
  ext
  · simp only [neg_x, neg_y, add_x, add_y, cross, smul_x, smul_eq_mul] at hl ⊢
    linear_combination ((S.vec f).x + (S.vec n).x) * hl
  · simp only [neg_x, neg_y, add_x, add_y, cross, smul_y, smul_eq_mul] at hl ⊢
    linear_combination ((S.vec f).y + (S.vec n).y) * hl

theorem side_iff (h : Cut S S' n f g a c d v) {x : HE} : IsSide S n x ↔ x = n ∨ x = f ∨ x = g := by
  unfold IsSide Tri.nextInFace
  rw [h.fn, h.ff]

theorem cutSide_iff (h : Cut S S' n f g a c d v) {x : HE} : IsCutSide S S' n x ↔
    (x = f ∨ x = neg d ∨ x = c) ∨ (x = g ∨ x = a ∨ x = d) := by
  unfold IsCutSide IsSide Tri.nextInFace
  rw [h.fn, h.ff, h.gf, h.gd', h.gg, h.ga]

/-- Where the corners are. -/
theorem corners (h : Cut S S' n f g a c d v) {C C' : HE → Vec T} (hC : CutLayout S S' n C C') :
    C f = C n + S.vec n ∧ C g = C n + (S.vec n + S.vec f) ∧ C' f = C f ∧ C' g = C g ∧ C' (neg d) = C g ∧
      C' a = C n ∧ C' d = C n + v ∧ C' c = C n + v := by
  have h1 := hC.old n (h.side_iff.2 (.inl rfl))
  have h2 := hC.old f (h.side_iff.2 (.inr (.inl rfl)))
  have h3 := hC.new f (h.cutSide_iff.2 (by tauto))
  have h4 := hC.new c (h.cutSide_iff.2 (by tauto))
  have h5 := hC.new d (h.cutSide_iff.2 (by tauto))
  have h6 := hC.new a (h.cutSide_iff.2 (by tauto))
  have h7 := hC.next
  have h8 := hC.previous
  unfold Tri.nextInFace at h1 h2 h3 h4 h5 h6 h7 h8
  rw [h.fn] at h1 h7
  rw [h.ff, h1] at h2
  rw [h.fn, h.ff] at h8
  rw [h.gf, h.vf, h7, h1, ← h2] at h3
  rw [h.gc, h.vc, h7, h1] at h4
  rw [h.gd, h.vd, h8, h2] at h5
  rw [h.ga, h.va] at h6
  have k5 : C' d = C n + v := by
    have : C' d = C' d + (S.vec n + S.vec f - v) - (S.vec n + S.vec f - v) := by abel
    rw [this, ← h5]
    abel
  have k4 : C' c = C n + v := by
    have : C' c = C' c + (S.vec n - v) - (S.vec n - v) := by abel
    rw [this, ← h4]
    abel
  refine ⟨h1, by rw [h2, add_assoc], h7, h8, h3, ?_, k5, k4⟩
  rw [k5] at h6
  exact (add_right_cancel h6).symm

/-- The corners in the plane, with the first corner at the origin. -/
theorem exists_layout (h : Cut S S' n f g a c d v) (hn : [n, f, g].Nodup) (hn' : [f, neg d, c, g, a, d].Nodup) :
    ∃ C C', CutLayout S S' n C C' ∧ C n = 0 := by
  refine ⟨fun x => if x = n then 0 else if x = f then S.vec n else S.vec n + S.vec f,
    fun x => if x = a then 0 else if x = f then S.vec n else if x = g ∨ x = neg d then S.vec n + S.vec f else v, ?_, by simp⟩
  simp only [List.nodup_cons, List.mem_cons, not_or, List.not_mem_nil, not_false_eq_true, and_true] at hn hn'
  obtain ⟨⟨i1, i2⟩, i3, -⟩ := hn
  obtain ⟨⟨j1, j2, j3, j4, j5⟩, ⟨k1, k2, k3, k4⟩, ⟨l1, l2, l3⟩, ⟨m1, m2⟩, m3, -⟩ := hn'
  have hc : S.vec n + S.vec f + S.vec g = 0 := h.closed
  have od := h.shut'.flat.odd d h.lt'.2.2.1
  rw [h.vd] at od
  refine ⟨fun x hx => ?_, fun x hx => ?_, ?_, ?_⟩
  · rw [h.side_iff] at hx
    unfold Tri.nextInFace
    rcases hx with rfl | rfl | rfl
    · rw [h.fn]; simp [Ne.symm, *]
    · rw [h.ff]; simp [Ne.symm, *]
    · rw [h.fg]; simp [Ne.symm, *]
  · rw [h.cutSide_iff] at hx
    unfold Tri.nextInFace
    rcases hx with (rfl | rfl | rfl) | (rfl | rfl | rfl)
    · rw [h.gf, h.vf]; simp [Ne.symm, *]
    · rw [h.gd', od]; simp [Ne.symm, *]
    · rw [h.gc, h.vc]; simp [Ne.symm, *]
    · rw [h.gg, h.vg]; simp [Ne.symm, *]
    · rw [h.ga, h.va]; simp [Ne.symm, *]
    · rw [h.gd, h.vd]; simp [Ne.symm, *]
  · unfold Tri.nextInFace
    rw [h.fn]; simp [Ne.symm, *]
  · unfold Tri.nextInFace
    rw [h.fn, h.ff]; simp [Ne.symm, *]

/-- The coordinates with respect to the face at the target of `n`. -/
theorem same1 (h : Cut S S' n f g a c d v) (x y z : T) : SameInCutFace S S' n ⟨n, x, y, z⟩
    ⟨neg d, z * cross (S.vec f) (v - S.vec n), x * cross (S.vec n) (S.vec f),
      y * cross (S.vec f) (v - S.vec n) - x * cross (S.vec g) v⟩ := by
  refine ⟨h.side_iff.2 (.inl rfl), h.cutSide_iff.2 (by tauto), fun C C' hC => ?_⟩
  obtain ⟨c1, c2, c3, c4, c5, c6, c7, c8⟩ := h.corners hC
  obtain ⟨-, -, -, hs⟩ := h.lefts
  have hr := h.ratio
  unfold place Tri.nextInFace
  dsimp only
  rw [h.fn, h.ff, h.gd', h.gc, c5, c8, c3, c2, c1]
  set s := cross (S.vec f) (v - S.vec n)
  set t := cross (S.vec g) v
  rw [← hs] at hr ⊢
  have rx := congrArg Vec.x hr
  have ry := congrArg Vec.y hr
  ext
  · simp only [smul_x, add_x, smul_eq_mul] at rx ⊢
    linear_combination (-(x + y + z) * x) * rx
  · simp only [smul_y, add_y, smul_eq_mul] at ry ⊢
    linear_combination (-(x + y + z) * x) * ry

/-- The coordinates with respect to the face at the source of `n`. -/
theorem same2 (h : Cut S S' n f g a c d v) (x y z : T) : SameInCutFace S S' n ⟨n, x, y, z⟩
    ⟨d, y * cross (S.vec n) (S.vec f), z * cross (S.vec g) v,
      x * cross (S.vec g) v - y * cross (S.vec f) (v - S.vec n)⟩ := by
  refine ⟨h.side_iff.2 (.inl rfl), h.cutSide_iff.2 (by tauto), fun C C' hC => ?_⟩
  obtain ⟨c1, c2, c3, c4, c5, c6, c7, c8⟩ := h.corners hC
  obtain ⟨-, -, -, hs⟩ := h.lefts
  have hr := h.ratio
  unfold place Tri.nextInFace
  dsimp only
  rw [h.fn, h.ff, h.gd, h.gg, c7, c4, c6, c2, c1]
  set s := cross (S.vec f) (v - S.vec n)
  set t := cross (S.vec g) v
  rw [← hs] at hr ⊢
  have rx := congrArg Vec.x hr
  have ry := congrArg Vec.y hr
  ext
  · simp only [smul_x, add_x, smul_eq_mul] at rx ⊢
    linear_combination (-(x + y + z) * y) * rx
  · simp only [smul_y, add_y, smul_eq_mul] at ry ⊢
    linear_combination (-(x + y + z) * y) * ry

/-- The description with respect to the cut face. -/
theorem splitCoordinates (h : Cut S S' n f g a c d v) (dbg : Bool) {p : Point T} {x y z : T}
    (hc : S.coordinates p n = .ok (x, y, z)) (hd : Describes S ⟨n, x, y, z⟩) :
    ∃ e, Describes S' e ∧ splitCoordinates dbg S S' p n = S'.point dbg e.face e.a e.b e.c ∧
      SameInCutFace S S' n ⟨n, x, y, z⟩ e := by
  obtain ⟨l1, l2, l3, l4⟩ := h.lefts
  obtain ⟨-, ⟨p1, p2, p3⟩, p4⟩ := hd
  dsimp only at p1 p2 p3 p4
  have hp : S'.tri.faces.inv g = d := by rw [← h.gd, h.shut'.flat.coh.hf.left]
  have r1 : S'.rotated ⟨g, 0, 1, 0⟩ d = (0, 0, 1) := by
    have q := h.shut'.rotated_prev (p := (⟨g, 0, 1, 0⟩ : Point T)) h.lt'.2.1
    dsimp only at q
    rw [h.gg, h.ga] at q
    exact q
  have r2 : S'.rotated ⟨f, 1, 0, 0⟩ (neg d) = (0, 0, 1) := by
    have q := h.shut'.rotated_next (p := (⟨f, 1, 0, 0⟩ : Point T)) h.lt'.1
    dsimp only at q
    rw [h.gf] at q
    exact q
  unfold FlatTri.splitCoordinates Tri.nextInFace Tri.previousInFace
  rw [hc]
  simp only [bind, Except.bind]
  rw [h.fn, h.ff, hp, r1]
  dsimp only
  rw [h.crossed1]
  dsimp only
  rw [r2]
  dsimp only
  rw [h.crossed2]
  dsimp only
  set s := cross (S.vec f) (v - S.vec n) with hs
  set t := cross (S.vec g) v with ht
  set D := cross (S.vec n) (S.vec f) with hD
  have e1 : x * 0 + z * (0 + D + -t) = z * s := by rw [← l4]; ring
  have e2 : x * -t + y * (0 + D + -t) = y * s - x * t := by rw [← l4]; ring
  have e3 : y * 0 + z * (D + 0 + -s) = z * t := by rw [← l4]; ring
  have e4 : y * -s + x * (D + 0 + -s) = x * t - y * s := by rw [← l4]; ring
  rw [e1, e2, e3, e4]
  by_cases hi : 0 ≤ y * s - x * t
  · refine ⟨⟨neg d, z * s, x * D, y * s - x * t⟩, ⟨h.lt'.2.2.2, ⟨by positivity, by positivity, hi⟩, ?_⟩, ?_, h.same1 x y z⟩
    · dsimp only
      rw [← l4]
      have : z * s + x * (s + t) + (y * s - x * t) = (x + y + z) * s := by ring
      rw [this]
      exact mul_pos p4 l1
    · rw [if_pos ⟨by positivity, by positivity, hi⟩]
  · rw [not_le] at hi
    have hi' : 0 ≤ x * t - y * s := by linarith
    refine ⟨⟨d, y * D, z * t, x * t - y * s⟩, ⟨h.lt'.2.2.1, ⟨by positivity, by positivity, hi'⟩, ?_⟩, ?_, h.same2 x y z⟩
    · dsimp only
      rw [← l4]
      have : y * (s + t) + z * t + (x * t - y * s) = (x + y + z) * t := by ring
      rw [this]
      exact mul_pos p4 l2
    · rw [if_neg (fun hh => absurd hh.2.2 (not_le.2 hi)), if_pos ⟨by positivity, by positivity, hi'⟩]

end Cut

end Verif.FlatTri
