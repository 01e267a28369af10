import Verif.Props.C17
import Mathlib.Logic.Relation

/-!
# Lemmas about Delaunay flips
-/

set_option linter.unusedSectionVars false

namespace Verif

open Tri Vec

theorem Tri.Quad.symm {C : Tri} {e a b c d : HE} (q : C.Quad e a b c d) : C.Quad (neg e) c d a b := by
  obtain ⟨fe, fa, fb, fe', fc, fd, ve, va, vb, ve', vc, vd, ⟨l1, l2, l3, l4, l5, l6⟩, nd⟩ := q
  refine ⟨fe', fc, fd, by rw [neg_neg']; exact fe, fa, by rw [neg_neg']; exact fb, ve', by rw [neg_neg']; exact vc, vd,
    by rw [neg_neg']; exact ve, va, vb, ⟨l6, l4, l5, l2, l3, by rw [neg_neg']; exact l1⟩, ?_⟩
  rw [neg_neg']
  have : [neg e, c, d, e, a, b].Perm [e, a, b, neg e, c, d] := (List.perm_append_comm (l₁ := [neg e, c, d]) (l₂ := [e, a, b]))
  exact this.nodup_iff.2 nd

namespace FlatTri

open Spec

variable {T : Type} [CommRing T] [LinearOrder T] [IsStrictOrderedRing T]
variable {K : Type*} [Field K] [LinearOrder K] [IsStrictOrderedRing K]

/-- The sign of this is the sign of the sine of the sum of two opposite angles in a quadrilateral with these sides, with
the opposite sign. -/
def incircle (a b c d : Vec T) : T := cross c d * dot a b + dot c d * cross a b

theorem perimeter {a b c d e : Vec T} (h1 : e + a + b = 0) (h2 : -e + c + d = 0) :
    e = -a - b ∧ d = -a - b - c := by
  constructor
  · rw [← sub_eq_zero, ← h1]; abel
  · have h3 : d - (-a - b - c) = e + a + b + (-e + c + d) := by abel
    rw [h1, h2, add_zero] at h3
    exact sub_eq_zero.1 h3

theorem Flat.delaunayAt_eq {S : FlatTri T} (h : S.Flat) {e a b c d : HE} (q : S.tri.Quad e a b c d) :
    S.delaunayAt e = if incircle (S.vec a) (S.vec b) (S.vec c) (S.vec d) < 0 then .delaunay
      else if incircle (S.vec a) (S.vec b) (S.vec c) (S.vec d) = 0 then .ambiguous else .nonDelaunay := by
  obtain ⟨g1, g2, g3, g4, g5, g6, g7, g8, g9⟩ := h.quad q
  obtain ⟨e1, e2⟩ := perimeter g6 g7
  have key : ∀ A B C : Vec T, A = -S.vec c + S.vec e → B = -S.vec c + -S.vec b → C = -S.vec c →
      det3 A.x A.y (A.x * A.x + A.y * A.y) B.x B.y (B.x * B.x + B.y * B.y) C.x C.y (C.x * C.x + C.y * C.y) =
      incircle (S.vec a) (S.vec b) (S.vec c) (S.vec d) := by
    rintro A B C rfl rfl rfl
    rw [e1, e2]
    simp only [det3, incircle, cross, dot, add_x, add_y, neg_x, neg_y, sub_x, sub_y]
    ring
  unfold delaunayAt Tri.nextAtVertex Tri.nextInFace
  simp only
  rw [q.ve, q.fe', g3, g4, key _ _ _ rfl rfl rfl]

theorem incircle_symm (a b c d : Vec T) : incircle c d a b = incircle a b c d := by
  unfold incircle; ring

theorem incircle_flip (a b c : Vec T) : incircle b c (-a - b - c) a = -incircle a b c (-a - b - c) := by
  simp only [incircle, cross, dot, neg_x, neg_y, sub_x, sub_y]
  ring

/-- A quadrilateral in which two opposite angles add up to more than a half turn is convex. -/
theorem incircle_convex {a b c : Vec T} (h1 : 0 < cross a b) (h2 : 0 < cross c (-a - b - c))
    (h3 : 0 < incircle a b c (-a - b - c)) : 0 < cross b c ∧ 0 < cross (-a - b - c) a := by
  have hsum : cross b c + cross (-a - b - c) a = cross a b + cross c (-a - b - c) := by
    simp only [cross, neg_x, neg_y, sub_x, sub_y]; ring
  have i1 : -(cross (-a - b - c) a * incircle a b c (-a - b - c)) =
      cross a b * (-cross b c) * dot (-a - b - c) (-a - b - c) + cross a b * cross c (-a - b - c) * dot (b + c) (b + c) +
        (-cross b c) * cross c (-a - b - c) * dot a a := by
    simp only [incircle, cross, dot, neg_x, neg_y, sub_x, sub_y, add_x, add_y]; ring
  have i2 : -(cross b c * incircle a b c (-a - b - c)) =
      cross c (-a - b - c) * (-cross (-a - b - c) a) * dot b b + cross c (-a - b - c) * cross a b * dot (a + b) (a + b) +
        (-cross (-a - b - c) a) * cross a b * dot c c -
      cross c (-a - b - c) * cross a b * (dot (a + b) (a + b) - dot (b + c) (b + c)) := by
    simp only [incircle, cross, dot, neg_x, neg_y, sub_x, sub_y, add_x, add_y]; ring
  have nn : ∀ v : Vec T, 0 ≤ dot v v := fun v => by
    unfold dot; nlinarith [mul_self_nonneg v.x, mul_self_nonneg v.y]
  constructor
  · by_contra hc
    rw [not_lt] at hc
    have hp : 0 < cross (-a - b - c) a := by linarith
    have t1 := mul_nonneg (mul_nonneg h1.le (neg_nonneg.2 hc)) (nn (-a - b - c))
    have t2 := mul_nonneg (mul_nonneg h1.le h2.le) (nn (b + c))
    have t3 := mul_nonneg (mul_nonneg (neg_nonneg.2 hc) h2.le) (nn a)
    have t4 := mul_pos hp h3
    linarith
  · by_contra hc
    rw [not_lt] at hc
    have hp : 0 < cross b c := by linarith
    have t1 := mul_nonneg (mul_nonneg h2.le (neg_nonneg.2 hc)) (nn b)
    have t2 := mul_nonneg (mul_nonneg h2.le h1.le) (nn (b + c))
    have t3 := mul_nonneg (mul_nonneg (neg_nonneg.2 hc) h1.le) (nn c)
    have t4 := mul_pos hp h3
    linarith

/-! ### Energy -/

/-- Area of the face times the sum of its squared lengths. -/
def faceEnergy (S : FlatTri T) (e : HE) : T :=
  if S.tri.faces.fwd e = e then 0
  else cross (S.vec e) (S.vec (S.tri.faces.fwd e)) * (dot (S.vec e) (S.vec e) +
    dot (S.vec (S.tri.faces.fwd e)) (S.vec (S.tri.faces.fwd e)) +
    dot (S.vec (S.tri.faces.fwd (S.tri.faces.fwd e))) (S.vec (S.tri.faces.fwd (S.tri.faces.fwd e))))

def energy (S : FlatTri T) : T := ∑ e ∈ Finset.range S.tri.size, S.faceEnergy e

theorem Flat.faceEnergy_nonneg {S : FlatTri T} (h : S.Flat) (e : HE) : 0 ≤ S.faceEnergy e := by
  unfold faceEnergy
  split_ifs with he
  · exact le_refl 0
  · have nn : ∀ v : Vec T, 0 ≤ dot v v := fun v => by
      unfold dot; nlinarith [mul_self_nonneg v.x, mul_self_nonneg v.y]
    exact mul_nonneg (h.oriented e he).le (add_nonneg (add_nonneg (nn _) (nn _)) (nn _))

theorem Flat.energy_nonneg {S : FlatTri T} (h : S.Flat) : 0 ≤ S.energy :=
  Finset.sum_nonneg fun e _ => h.faceEnergy_nonneg e

/-- The quadrilateral after a flip. -/
theorem Flip.quad {S S' : FlatTri T} (h' : S'.Flat) {e a b c d : HE} (q : S.tri.Quad e a b c d)
    (f : S.Flip S' e a b c d) : S'.tri.Quad e b c d a := by
  obtain ⟨⟨ea, eb, ee', ec, ed⟩, ⟨ab, ae', ac, ad⟩, ⟨be', bc, bd⟩, ⟨e'c, e'd⟩, cd⟩ := q.ne
  have q' := h'.coh.quad (h'.flippable (e := e) (by rw [f.tri.fe]; exact eb.symm) (by rw [f.tri.fe']; exact e'd.symm))
  rwa [f.tri.fe, f.tri.fb, f.tri.fe', f.tri.fd] at q'

/-- The energy changes by the value that decides whether the edge is Delaunay. -/
theorem Flip.energy {S S' : FlatTri T} (h : S.Flat) {e a b c d : HE} (q : S.tri.Quad e a b c d)
    (f : S.Flip S' e a b c d) :
    S'.energy = S.energy - 12 * incircle (S.vec a) (S.vec b) (S.vec c) (S.vec d) := by
  have hne := q.ne
  obtain ⟨⟨ea, eb, ee', ec, ed⟩, ⟨ab, ae', ac, ad⟩, ⟨be', bc, bd⟩, ⟨e'c, e'd⟩, cd⟩ := q.ne
  obtain ⟨v1, v2, v3⟩ := f.vec_e
  have h1 := f.sum_sub q S.faceEnergy S'.faceEnergy (by
    intro x hx
    have m1 := (q.fwd_not_mem h.coh).2 hx
    have m2 := (q.fwd_not_mem h.coh).2 m1
    have hx' := not_mem_six.1 hx
    have m1' := not_mem_six.1 m1
    have m2' := not_mem_six.1 m2
    unfold faceEnergy
    rw [f.tri.fx x hx, f.tri.fx _ m1, v3 x hx'.1 hx'.2.2.2.1, v3 _ m1'.1 m1'.2.2.2.1, v3 _ m2'.1 m2'.2.2.2.1])
  obtain ⟨g1, g2, g3, g4, g5, g6, g7, g8, g9⟩ := h.quad q
  obtain ⟨e1, e2⟩ := perimeter g6 g7
  have va := v3 a ea.symm ae'
  have vb := v3 b eb.symm be'
  have vc := v3 c ec.symm e'c.symm
  have vd := v3 d ed.symm e'd.symm
  unfold FlatTri.energy
  rw [sub_eq_iff_eq_add] at h1
  rw [h1]
  unfold faceEnergy
  rw [q.fe, q.fa, q.fb, q.fe', q.fc, q.fd, q.fe, q.fe', f.tri.fe, f.tri.fb, f.tri.fc, f.tri.fe', f.tri.fd, f.tri.fa,
    f.tri.fe, f.tri.fe', if_neg ea.symm, if_neg ab.symm, if_neg eb, if_neg e'c.symm, if_neg cd.symm, if_neg e'd,
    if_neg eb.symm, if_neg bc.symm, if_neg ec, if_neg e'd.symm, if_neg ad, if_neg ae'.symm, va, vb, vc, vd, v1, v2, g1,
    e1, e2]
  simp only [incircle, cross, dot, neg_x, neg_y, sub_x, sub_y, add_x, add_y]
  ring

end FlatTri

end Verif
