import Verif.Props.C30
import Verif.Lemmas.Sector

/-!
# C31: coordinates in an adjacent face describe the same position
-/

namespace Verif.C31

open Verif Spec Tri FlatTri Examples Vec

variable {T : Type} [CommRing T] [LinearOrder T] [IsStrictOrderedRing T]

/-- The weights with respect to a half edge as a point. -/
def weighted (e : HE) (w : T × T × T) : Point T := ⟨e, w.1, w.2.1, w.2.2⟩

/-- The sides of a face in the plane. -/
theorem face_closed {f : T →+* ℝ} {dbg : Bool} {S : FlatTri T} (h : Closed dbg S) {e : HE} (he : e < S.tri.size) :
    (S.vec e).map f + (S.vec (S.tri.faces.fwd e)).map f + (S.vec (S.tri.faces.fwd (S.tri.faces.fwd e))).map f = 0 := by
  have h1 := h.shut.flat.closed e (h.shut.nb e he)
  have h2 := congrArg (fun v : Vec T => v.map f) h1
  simp only [Vec.map, add_x, add_y, map_add, zero_x, zero_y, map_zero] at h2
  injection h2 with h2 h3
  ext
  · simpa [Vec.map] using h2
  · simpa [Vec.map] using h3

/-- Rotating the weights does not move the point. -/
theorem rotated_correct {f : T →+* ℝ} (hf : StrictMono f) {dbg : Bool} {S : FlatTri T} (h : Closed dbg S) {p : Point T}
    (hp : p.face < S.tri.size) (hs : p.a + p.b + p.c ≠ 0) :
    planePosition f S p =
      (S.vec p.face).map f + planePosition f S (weighted (S.tri.nextInFace p.face) (S.rotated p (S.tri.nextInFace p.face))) := by
  have hc := face_closed (f := f) h hp
  have hs' : f p.a + f p.b + f p.c ≠ 0 := by
    rw [← map_add, ← map_add, Ne, map_eq_zero_iff f hf.injective]
    exact hs
  have e3 : (S.vec (S.tri.faces.fwd (S.tri.faces.fwd p.face))).map f =
      -((S.vec p.face).map f + (S.vec (S.tri.faces.fwd p.face)).map f) := by
    rw [eq_neg_iff_add_eq_zero, add_comm]
    exact hc
  have hadd : ∀ v w : Vec T, (v + w).map f = v.map f + w.map f := fun v w => by ext <;> simp [Vec.map]
  unfold planePosition weighted Tri.nextInFace
  rw [h.shut.rotated_next hp]
  simp only [map_add, hadd, e3]
  rw [show f p.b + f p.c + f p.a = f p.a + f p.b + f p.c by ring]
  generalize (S.vec p.face).map f = u
  generalize (S.vec (S.tri.faces.fwd p.face)).map f = v
  ext
  · simp only [smul_x, add_x, neg_x]
    field_simp
    ring
  · simp only [smul_y, add_y, neg_y]
    field_simp
    ring

/-- Crossing an edge does not move the point. -/
theorem crossed_correct {f : T →+* ℝ} (hf : StrictMono f) {dbg : Bool} {S : FlatTri T} (h : Closed dbg S) {p : Point T}
    (hp : p.face < S.tri.size) (hs : p.a + p.b + p.c ≠ 0) :
    planePosition f S p = (S.vec p.face).map f + planePosition f S (weighted (neg p.face) (S.crossed p)) ∧
    ∃ l : T, 0 < l ∧ (S.crossed p).1 + (S.crossed p).2.1 + (S.crossed p).2.2 = l * (p.a + p.b + p.c) := by
  have q := h.shut.quad hp
  obtain ⟨g1, g2, g3, g4, g5, g6, g7, g8, g9⟩ := h.shut.flat.quad q
  have e1 : S.vec (S.tri.faces.fwd (S.tri.faces.fwd (neg p.face))) = S.vec p.face - S.vec (S.tri.faces.fwd (neg p.face)) := by
    rw [eq_sub_iff_add_eq, add_comm, ← sub_eq_zero, ← g7]
    abel
  have hsum : (S.crossed p).1 + (S.crossed p).2.1 + (S.crossed p).2.2 =
      cross (S.vec (S.tri.faces.fwd (neg p.face))) (S.vec (S.tri.faces.fwd (S.tri.faces.fwd (neg p.face)))) *
        (p.a + p.b + p.c) := by
    unfold crossed Tri.nextInFace Tri.previousInFace cross
    rw [h.shut.prev]
    simp only [neg_x, neg_y, add_x, add_y]
    ring
  refine ⟨?_, _, g9, hsum⟩
  have hs' : f p.a + f p.b + f p.c ≠ 0 := by
    rw [← map_add, ← map_add, Ne, map_eq_zero_iff f hf.injective]
    exact hs
  have hd : f (cross (S.vec (S.tri.faces.fwd (neg p.face))) (S.vec (S.tri.faces.fwd (S.tri.faces.fwd (neg p.face))))) ≠ 0 := by
    rw [Ne, map_eq_zero_iff f hf.injective]
    exact g9.ne'
  unfold planePosition weighted
  simp only [hsum]
  rw [map_mul]
  generalize hdet : f (cross (S.vec (S.tri.faces.fwd (neg p.face))) (S.vec (S.tri.faces.fwd (S.tri.faces.fwd (neg p.face))))) = det at *
  unfold crossed Tri.nextInFace Tri.previousInFace
  rw [h.shut.prev, e1, g1] at *
  rw [map_add, map_add]
  ext
  · simp only [Vec.map, smul_x, add_x, neg_x, sub_x, neg_y, sub_y, add_y, map_add, map_mul, map_sub, map_neg, cross] at *
    field_simp
    rw [← hdet]
    ring
  · simp only [Vec.map, smul_y, add_x, neg_x, sub_x, neg_y, sub_y, add_y, map_add, map_mul, map_sub, map_neg, cross] at *
    field_simp
    rw [← hdet]
    ring

/-- Barycentric coordinates for a point in the plane. -/
theorem barycentric_correct {f : T →+* ℝ} (hf : StrictMono f) {dbg : Bool} {S : FlatTri T} (h : Closed dbg S) {e : HE}
    (he : e < S.tri.size) (xy : Vec T) :
    planePosition f S (weighted e (S.barycentric e xy)) = xy.map f ∧
    0 < (S.barycentric e xy).1 + (S.barycentric e xy).2.1 + (S.barycentric e xy).2.2 := by
  have q := h.shut.quad he
  obtain ⟨g1, g2, g3, g4, g5, g6, g7, g8, g9⟩ := h.shut.flat.quad q
  have e1 : S.vec (S.tri.faces.fwd (S.tri.faces.fwd e)) = -(S.vec e + S.vec (S.tri.faces.fwd e)) := by
    rw [eq_neg_iff_add_eq_zero, add_comm]
    exact g6
  have g8' : 0 < cross (S.vec e) (S.vec (S.tri.faces.fwd e)) := h.shut.flat.oriented e (h.shut.nb e he)
  have hsum : (S.barycentric e xy).1 + (S.barycentric e xy).2.1 + (S.barycentric e xy).2.2 =
      cross (S.vec e) (S.vec (S.tri.faces.fwd e)) := by
    unfold barycentric Tri.previousInFace cross
    rw [h.shut.prev, e1]
    simp only [neg_x, neg_y, add_x, add_y]
    ring
  refine ⟨?_, by rw [hsum]; exact g8'⟩
  have hd : f (cross (S.vec e) (S.vec (S.tri.faces.fwd e))) ≠ 0 := by
    rw [Ne, map_eq_zero_iff f hf.injective]
    exact g8'.ne'
  unfold planePosition weighted
  simp only [hsum]
  unfold barycentric Tri.nextInFace Tri.previousInFace
  rw [h.shut.prev, e1]
  ext
  · simp only [Vec.map, smul_x, add_x, neg_x, sub_x, neg_y, sub_y, add_y, map_add, map_mul, map_sub, map_neg, cross] at *
    field_simp
    ring
  · simp only [Vec.map, smul_y, add_x, neg_x, sub_x, neg_y, sub_y, add_y, map_add, map_mul, map_sub, map_neg, cross] at *
    field_simp
    ring

/-- Cartesian coordinates are the position in the plane. They are only returned if they are in the base ring and otherwise
an error is reported. -/
theorem cartesian_correct {f : T →+* ℝ} (hf : StrictMono f) {dbg : Bool} {S : FlatTri T} (h : Closed dbg S)
    {div : T → T → Option T} (hdiv : TrueDivision div) {p : Point T} (hp : p.face < S.tri.size)
    (hs : p.a + p.b + p.c ≠ 0) :
    (∃ xy, S.cartesian div p = .ok xy ∧ xy.map f = planePosition f S p) ∨
    S.cartesian div p = .error .invalidArgument ∧ ∀ xy : Vec T, xy.map f ≠ planePosition f S p := by
  have g6 := h.shut.flat.closed p.face (h.shut.nb _ hp)
  have e1 : S.vec (S.tri.faces.fwd (S.tri.faces.fwd p.face)) = -(S.vec p.face + S.vec (S.tri.faces.fwd p.face)) := by
    rw [eq_neg_iff_add_eq_zero, add_comm]
    exact g6
  have hs' : f p.a + f p.b + f p.c ≠ 0 := by
    rw [← map_add, ← map_add, Ne, map_eq_zero_iff f hf.injective]
    exact hs
  have key : ∀ xy : Vec T, xy.map f = planePosition f S p ↔
      xy.x * (p.a + p.b + p.c) = (p.c • -S.vec (S.tri.previousInFace p.face) + p.b • S.vec p.face).x ∧
      xy.y * (p.a + p.b + p.c) = (p.c • -S.vec (S.tri.previousInFace p.face) + p.b • S.vec p.face).y := by
    intro xy
    unfold planePosition Tri.nextInFace Tri.previousInFace
    rw [h.shut.prev, e1, Vec.ext_iff]
    simp only [Vec.map, smul_x, smul_y, add_x, neg_x, neg_y, add_y, neg_neg]
    rw [← hf.injective.eq_iff (a := xy.x * _), ← hf.injective.eq_iff (a := xy.y * _)]
    simp only [map_add, map_mul]
    rw [eq_inv_mul_iff_mul_eq₀ hs', eq_inv_mul_iff_mul_eq₀ hs']
    constructor
    · rintro ⟨k1, k2⟩
      exact ⟨by linear_combination k1, by linear_combination k2⟩
    · rintro ⟨k1, k2⟩
      exact ⟨by linear_combination k1, by linear_combination k2⟩
  unfold cartesian
  simp only
  cases hx : div (p.c • -S.vec (S.tri.previousInFace p.face) + p.b • S.vec p.face).x (p.a + p.b + p.c) with
  | none =>
    refine .inr ⟨rfl, fun xy hk => ?_⟩
    rw [(hdiv _ _ hs xy.x).2 ((key xy).1 hk).1] at hx
    cases hx
  | some x =>
    cases hy : div (p.c • -S.vec (S.tri.previousInFace p.face) + p.b • S.vec p.face).y (p.a + p.b + p.c) with
    | none =>
      refine .inr ⟨rfl, fun xy hk => ?_⟩
      rw [(hdiv _ _ hs xy.y).2 ((key xy).1 hk).2] at hy
      cases hy
    | some y =>
      exact .inl ⟨⟨x, y⟩, rfl, (key _).2 ⟨(hdiv _ _ hs _).1 hx, (hdiv _ _ hs _).1 hy⟩⟩

/-- `vector(origin)` is the position in the plane of a description with respect to `origin`. -/
theorem vector_correct {f : T →+* ℝ} (hf : StrictMono f) {dbg : Bool} {S : FlatTri T} (h : Closed dbg S)
    {div : T → T → Option T} (hdiv : TrueDivision div) {d p : Point T} (hp : C30.Created dbg S d p) {origin : HE}
    (ho : origin < S.tri.size) {xy : Vec T} (hxy : S.pointVector div p origin = .ok xy) :
    ∃ a b c, SamePosition S d ⟨origin, a, b, c⟩ ∧ xy.map f = planePosition f S ⟨origin, a, b, c⟩ := by
  unfold pointVector at hxy
  rcases C30.coordinates_correct h hp ho with ⟨a, b, c, h1, h2⟩ | ⟨h1, h2⟩
  · rw [h1] at hxy
    have hd := (h2.describes h.shut).1 hp.1
    refine ⟨a, b, c, h2, ?_⟩
    rcases cartesian_correct hf h hdiv (p := ⟨origin, a, b, c⟩) ho hd.pos.ne' with ⟨xy', h3, h4⟩ | ⟨h3, h4⟩
    · rw [show S.cartesian div ⟨origin, a, b, c⟩ = .ok xy from hxy] at h3
      injection h3 with h3
      exact h3 ▸ h4
    · rw [show S.cartesian div ⟨origin, a, b, c⟩ = .ok xy from hxy] at h3
      cases h3
  · rw [h1] at hxy
    cases hxy

/-- Division of integers as in `truediv`, linear_deformation_relation.cc:125-129. -/
def intDiv (x y : ℤ) : Option ℤ := if x.tdiv y * y = x then some (x.tdiv y) else none

theorem intDiv_true : TrueDivision intDiv := by
  intro x y hy q
  unfold intDiv
  split_ifs with h
  · rw [Option.some.injEq]
    constructor
    · rintro rfl; exact h
    · intro hq; exact mul_right_cancel₀ hy (h.trans hq.symm)
  · simp only [reduceCtorEq, false_iff]
    rintro rfl
    rw [Int.mul_tdiv_cancel _ hy] at h
    exact h rfl

/-- Division of rationals. -/
def ratDiv (x y : ℚ) : Option ℚ := if x / y * y = x then some (x / y) else none

theorem ratDiv_true : TrueDivision ratDiv := by
  intro x y hy q
  unfold ratDiv
  rw [if_pos (div_mul_cancel₀ x hy), Option.some.injEq, div_eq_iff hy]
  exact eq_comm

/-- The hypotheses are met: a point on the torus. -/
example : ∃ p, C30.Created true flatTorus ⟨4, 1, 1, 2⟩ p ∧ (p.a + p.b + p.c ≠ 0) ∧
    flatTorus.cartesian intDiv p = .error .invalidArgument ∧ flatTorus.crossed p = (3, 3, -2) :=
  ⟨_, ⟨⟨by decide, by decide, by decide⟩, rfl⟩, by decide, rfl, rfl⟩

end Verif.C31
