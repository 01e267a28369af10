import Verif.Lemmas.PointCode
import Verif.Lemmas.Flat
import Verif.Model.FlipPoint
import Verif.Spec.FlipPoint

/-!
# Points and flips
-/

set_option linter.unusedSectionVars false

namespace Verif

open Spec Tri FlatTri Vec

variable {T : Type} [CommRing T] [LinearOrder T] [IsStrictOrderedRing T]

/-- Two closed surfaces that only differ by the diagonal of a quadrilateral. -/
structure Diagonals (S S' : FlatTri T) (e e' a b c d : HE) : Prop where
  shut : S.Shut
  shut' : S'.Shut
  quad : S.tri.Quad e a b c d
  quad' : S'.tri.Quad e' b c d a
  same : e' = e ∨ e' = neg e
  size : S'.tri.size = S.tri.size
  vec : ∀ x, x ≠ e → x ≠ neg e → S'.vec x = S.vec x
  fx : ∀ x, x ∉ [e, a, b, neg e, c, d] → S'.tri.faces.fwd x = S.tri.faces.fwd x

theorem inQuad_iff {S : FlatTri T} {e a b c d : HE} (q : S.tri.Quad e a b c d) {x : HE} :
    InQuad S e x ↔ x ∈ [e, a, b, neg e, c, d] := by
  unfold InQuad Tri.nextInFace
  rw [q.fe, q.fa, q.fe', q.fc]
  simp

theorem Tri.Quad.opposite {t : Tri} {e a b c d : HE} (q : t.Quad e a b c d) : t.Quad (neg e) c d a b := by
  refine ⟨q.fe', q.fc, q.fd, ?_, q.fa, ?_, q.ve', q.vc.trans (neg_neg' e).symm, q.vd, ?_, q.va, q.vb, ?_, ?_⟩
  · rw [neg_neg']; exact q.fe
  · rw [neg_neg']; exact q.fb
  · rw [neg_neg']; exact q.ve
  · rw [neg_neg']
    obtain ⟨l1, l2, l3, l4, l5, l6⟩ := q.lt
    exact ⟨l6, l4, l5, l2, l3, l1⟩
  · rw [neg_neg']
    have := q.nodup
    simp only [List.nodup_cons, List.mem_cons, not_or, List.not_mem_nil, not_false_eq_true, List.nodup_nil,
      and_true, ← ne_eq] at this ⊢
    obtain ⟨⟨ea, eb, ee', ec, ed⟩, ⟨ab, ae', ac, ad⟩, ⟨be', bc, bd⟩, ⟨e'c, e'd⟩, cd⟩ := this
    exact ⟨⟨e'c, e'd, ee'.symm, ae'.symm, be'.symm⟩, ⟨cd, ec.symm, ac.symm, bc.symm⟩, ⟨ed.symm, ad.symm, bd.symm⟩,
      ⟨ea, eb⟩, ab⟩

theorem inQuad_neg {S : FlatTri T} {e x : HE} : InQuad S (neg e) x ↔ InQuad S e x := by
  unfold InQuad
  rw [neg_neg']
  tauto

theorem Layout.opposite {S : FlatTri T} {e : HE} {C : HE → Vec T} (h : Layout S e C) (hv : S.vec (neg e) = -S.vec e) :
    Layout S (neg e) C := by
  refine ⟨fun x hx => h.side x (inQuad_neg.1 hx), ?_⟩
  rw [neg_neg', h.glued, hv]
  abel

theorem Layout.corners {S : FlatTri T} {e a b c d : HE} {C : HE → Vec T} (h : Layout S e C) (hF : S.Flat)
    (q : S.tri.Quad e a b c d) : C b = C a + S.vec a ∧ C e = C a + (S.vec a + S.vec b) ∧ C c = C a + (S.vec a + S.vec b) ∧
      C d = C a + (S.vec a + S.vec b + S.vec c) ∧ C (neg e) = C a := by
  have s := fun x (hx : x ∈ [e, a, b, neg e, c, d]) => h.side x ((inQuad_iff q).2 hx)
  unfold Tri.nextInFace at s
  have s1 := s e (by simp)
  have s2 := s a (by simp)
  have s3 := s b (by simp)
  have s4 := s (neg e) (by simp)
  have s5 := s c (by simp)
  rw [q.fe] at s1
  rw [q.fa] at s2
  rw [q.fb] at s3
  rw [q.fe'] at s4
  rw [q.fc] at s5
  have s6 := h.glued
  obtain ⟨g1, -⟩ := hF.quad q
  refine ⟨s2, by rw [s3, s2]; abel, ?_, ?_, by rw [s6, s1]⟩
  · rw [s4, s6, g1, ← sub_eq_add_neg, add_sub_cancel_right, s3, s2]; abel
  · rw [s5, s4, s6, g1, ← sub_eq_add_neg, add_sub_cancel_right, s3, s2]; abel

/-! ### Places -/

/-- The sum of the weights. -/
def Point.weight (p : Point T) : T := p.a + p.b + p.c

/-- In the same place of the plane. -/
def SamePlace (S S' : FlatTri T) (C C' : HE → Vec T) (p p' : Point T) : Prop :=
  p'.weight • place S C p = p.weight • place S' C' p'

theorem SamePlace.symm {S S' : FlatTri T} {C C' : HE → Vec T} {p p' : Point T} (h : SamePlace S S' C C' p p') :
    SamePlace S' S C' C p' p := Eq.symm h

theorem Vec.smul_cancel {l : T} (hl : 0 < l) {v w : Vec T} (h : l • v = l • w) : v = w := by
  have h1 := congrArg Vec.x h
  have h2 := congrArg Vec.y h
  simp only [smul_x, smul_y] at h1 h2
  ext
  · exact mul_left_cancel₀ hl.ne' h1
  · exact mul_left_cancel₀ hl.ne' h2

theorem SamePlace.trans {S S' S'' : FlatTri T} {C C' C'' : HE → Vec T} {p p' p'' : Point T} (hw : 0 < p'.weight)
    (h : SamePlace S S' C C' p p') (h' : SamePlace S' S'' C' C'' p' p'') : SamePlace S S'' C C'' p p'' := by
  unfold SamePlace at *
  apply Vec.smul_cancel hw
  rw [smul_smul, mul_comm, ← smul_smul, h, smul_smul, mul_comm, ← smul_smul, h', smul_smul, smul_smul, mul_comm]

theorem place_next {S : FlatTri T} (hS : S.Shut) {C : HE → Vec T} {p : Point T} :
    place S C ⟨S.tri.nextInFace p.face, p.b, p.c, p.a⟩ = place S C p := by
  unfold place Tri.nextInFace
  simp only
  rw [hS.next3]
  abel

theorem inQuad_next {S : FlatTri T} (hS : S.Shut) {e x : HE} (he : e < S.tri.size) :
    InQuad S e (S.tri.nextInFace x) ↔ InQuad S e x := by
  rw [inQuad_iff (hS.quad he), inQuad_iff (hS.quad he)]
  exact not_iff_not.1 ((hS.quad he).fwd_not_mem hS.flat.coh)

theorem Describes.next {S : FlatTri T} (hS : S.Shut) {p : Point T} (hp : Describes S p) :
    Describes S ⟨S.tri.nextInFace p.face, p.b, p.c, p.a⟩ :=
  ((SamePosition.rotate (S := S) (e := p.face) (a := p.a) (b := p.b) (c := p.c)).describes hS).1 hp

/-- Points in the quadrilateral can be described with `e` or `-e`. -/
theorem to_diagonal {S : FlatTri T} (hS : S.Shut) {e : HE} (he : e < S.tri.size) {p : Point T} (hp : Describes S p)
    (hi : InQuad S e p.face) : ∃ r, SamePosition S p r ∧ Describes S r ∧ r.weight = p.weight ∧
      (∀ C, place S C r = place S C p) ∧ (r.face = e ∨ r.face = neg e) := by
  have q := hS.quad he
  have key : ∀ p : Point T, Describes S p → ∃ r, SamePosition S p r ∧ Describes S r ∧ r.weight = p.weight ∧
      (∀ C, place S C r = place S C p) ∧ r.face = S.tri.faces.fwd p.face := fun p hp =>
    ⟨⟨S.tri.nextInFace p.face, p.b, p.c, p.a⟩, .rotate, Describes.next hS hp, by unfold Point.weight; ring,
      fun C => place_next hS, rfl⟩
  rw [inQuad_iff q] at hi
  rcases mem_six_cases hi with h | h | h | h | h | h
  · exact ⟨p, .refl _, hp, rfl, fun _ => rfl, .inl h⟩
  · obtain ⟨r, h1, h2, h3, h4, h5⟩ := key p hp
    obtain ⟨s, g1, g2, g3, g4, g5⟩ := key r h2
    exact ⟨s, h1.trans g1, g2, g3.trans h3, fun C => (g4 C).trans (h4 C), .inl (by rw [g5, h5, h, hS.next3])⟩
  · obtain ⟨r, h1, h2, h3, h4, h5⟩ := key p hp
    exact ⟨r, h1, h2, h3, h4, .inl (by rw [h5, h, hS.next3])⟩
  · exact ⟨p, .refl _, hp, rfl, fun _ => rfl, .inr h⟩
  · obtain ⟨r, h1, h2, h3, h4, h5⟩ := key p hp
    obtain ⟨s, g1, g2, g3, g4, g5⟩ := key r h2
    exact ⟨s, h1.trans g1, g2, g3.trans h3, fun C => (g4 C).trans (h4 C), .inr (by rw [g5, h5, h, hS.next3])⟩
  · obtain ⟨r, h1, h2, h3, h4, h5⟩ := key p hp
    exact ⟨r, h1, h2, h3, h4, .inr (by rw [h5, h, hS.next3])⟩

/-- In a triangle, weights are determined by the place. -/
theorem same_of_place_face {S : FlatTri T} (hS : S.Shut) {e : HE} (he : e < S.tri.size) {C : HE → Vec T}
    (hC : ∀ x, InQuad S e x → C (S.tri.nextInFace x) = C x + S.vec x) {a b c a' b' c' : T}
    (hp : Describes S ⟨e, a, b, c⟩) (hp' : Describes S ⟨e, a', b', c'⟩)
    (h : SamePlace S S C C ⟨e, a, b, c⟩ ⟨e, a', b', c'⟩) : SamePosition S ⟨e, a, b, c⟩ ⟨e, a', b', c'⟩ := by
  have h1 := hC e (.inl rfl)
  have h2 := hC (S.tri.nextInFace e) (.inr (.inl rfl))
  have hpos := hS.flat.oriented e (hS.nb e he)
  unfold SamePlace place Point.weight Tri.nextInFace at *
  simp only at h h1 h2
  have w := hp.pos
  have w' := hp'.pos
  simp only at w w'
  generalize S.tri.faces.fwd e = n at *
  rw [h2, h1] at h
  generalize C e = O at *
  generalize S.vec e = u at *
  generalize S.vec n = v at *
  have hx := congrArg Vec.x h
  have hy := congrArg Vec.y h
  simp only [smul_x, smul_y, add_x, add_y] at hx hy
  unfold cross at hpos
  have kc : (a' + b' + c') * c = (a + b + c) * c' := by
    apply mul_left_cancel₀ hpos.ne'
    linear_combination u.x * hy - u.y * hx
  have kb : (a' + b' + c') * b = (a + b + c) * b' := by
    apply mul_left_cancel₀ hpos.ne'
    linear_combination v.y * hx - v.x * hy - (u.x * v.y - u.y * v.x) * kc
  have ka : (a' + b' + c') * a = (a + b + c) * a' := by linear_combination -kb - kc
  exact .proportional w' w ka kb kc

/-- The triangles at an edge only overlap in that edge. -/
theorem same_of_place_across {S : FlatTri T} (hS : S.Shut) {e : HE} (he : e < S.tri.size) {C : HE → Vec T}
    (hC : Layout S e C) {a b c a' b' c' : T}
    (hp : Describes S ⟨e, a, b, c⟩) (hp' : Describes S ⟨neg e, a', b', c'⟩)
    (h : SamePlace S S C C ⟨e, a, b, c⟩ ⟨neg e, a', b', c'⟩) : SamePosition S ⟨e, a, b, c⟩ ⟨neg e, a', b', c'⟩ := by
  have q := hS.quad he
  have hn := hS.neg_lt he
  have hpos := hS.flat.oriented e (hS.nb e he)
  have hpos' := hS.flat.oriented (neg e) (hS.nb _ hn)
  have hneg := hS.flat.odd e he
  have h1 := hC.side e (.inl rfl)
  have h2 := hC.side (S.tri.nextInFace e) (.inr (.inl rfl))
  have h3 := hC.side (neg e) (by unfold InQuad; tauto)
  have h4 := hC.side (S.tri.nextInFace (neg e)) (by unfold InQuad; tauto)
  have h5 := hC.glued
  have hsame : ∀ w, SamePlace S S C C ⟨e, a, b, c⟩ ⟨neg e, a', b', w⟩ → w = 0 → c = 0 →
      SamePosition S ⟨e, a, b, c⟩ ⟨neg e, a', b', w⟩ → SamePosition S ⟨e, a, b, c⟩ ⟨neg e, a', b', w⟩ := fun _ _ _ _ h => h
  unfold SamePlace place Point.weight Tri.nextInFace at *
  simp only at h h1 h2 h3 h4
  have w := hp.pos
  have w' := hp'.pos
  obtain ⟨a0, b0, c0⟩ := hp.nonneg
  obtain ⟨a1, b1, c1⟩ := hp'.nonneg
  simp only at w w' a0 b0 c0 a1 b1 c1
  rw [hneg] at h3 hpos'
  rw [h4, h3, h2, h1, h5] at h
  generalize C e = O at *
  generalize S.vec e = u at *
  generalize S.vec (S.tri.faces.fwd e) = v at *
  generalize S.vec (S.tri.faces.fwd (neg e)) = v' at *
  have hx := congrArg Vec.x h
  have hy := congrArg Vec.y h
  simp only [smul_x, smul_y, add_x, add_y, neg_x, neg_y] at hx hy
  unfold cross at hpos hpos'
  simp only [neg_x, neg_y] at hpos'
  have key : (a' + b' + c') * c * (u.x * v.y - u.y * v.x) + (a + b + c) * c' * (-u.x * v'.y - -u.y * v'.x) = 0 := by
    linear_combination u.x * hy - u.y * hx
  have n1 : 0 ≤ (a' + b' + c') * c * (u.x * v.y - u.y * v.x) := by positivity
  have n2 : 0 ≤ (a + b + c) * c' * (-u.x * v'.y - -u.y * v'.x) := mul_nonneg (mul_nonneg w.le c1) hpos'.le
  have z1 : c = 0 := by
    have : (a' + b' + c') * c * (u.x * v.y - u.y * v.x) = 0 := by linarith
    rcases mul_eq_zero.1 this with h' | h'
    · exact (mul_eq_zero.1 h').resolve_left w'.ne'
    · exact absurd h' hpos.ne'
  have z2 : c' = 0 := by
    have : (a + b + c) * c' * (-u.x * v'.y - -u.y * v'.x) = 0 := by linarith
    rcases mul_eq_zero.1 this with h' | h'
    · exact (mul_eq_zero.1 h').resolve_left w.ne'
    · exact absurd h' hpos'.ne'
  subst z1 z2
  have kb : (a' + b' + 0) * b = (a + b + 0) * a' := by
    have hu : u.x ≠ 0 ∨ u.y ≠ 0 := by
      by_contra hc
      push Not at hc
      rw [hc.1, hc.2] at hpos
      simp at hpos
    rcases hu with hu | hu
    · apply mul_left_cancel₀ hu
      linear_combination hx
    · apply mul_left_cancel₀ hu
      linear_combination hy
  have ka : (a' + b' + 0) * a = (a + b + 0) * b' := by linear_combination -kb
  refine SamePosition.trans (SamePosition.proportional (c' := 0) (a' := b') (b' := a') w' w ka kb (by ring)) ?_
  exact .glue

/-- Descriptions in the quadrilateral for the same place in the plane are for the same position. -/
theorem same_of_place {S : FlatTri T} (hS : S.Shut) {e : HE} (he : e < S.tri.size) {C : HE → Vec T}
    (hC : Layout S e C) {p p' : Point T} (hp : Describes S p) (hp' : Describes S p') (hi : InQuad S e p.face)
    (hi' : InQuad S e p'.face) (h : SamePlace S S C C p p') : SamePosition S p p' := by
  obtain ⟨r, h1, h2, h3, h4, h5⟩ := to_diagonal hS he hp hi
  obtain ⟨r', h1', h2', h3', h4', h5'⟩ := to_diagonal hS he hp' hi'
  have hr : SamePlace S S C C r r' := by
    unfold SamePlace at *
    rw [h4, h4', h3, h3']
    exact h
  refine (h1.trans ?_).trans h1'.symm
  obtain ⟨x, a, b, c⟩ := r
  obtain ⟨x', a', b', c'⟩ := r'
  have hC' := Layout.opposite hC (hS.flat.odd e he)
  simp only at h5 h5'
  rcases h5 with rfl | rfl <;> rcases h5' with rfl | rfl
  · exact same_of_place_face hS he hC.side h2 h2' hr
  · exact same_of_place_across hS he hC h2 h2' hr
  · exact (same_of_place_across hS he hC h2' h2 hr.symm).symm
  · exact same_of_place_face hS (hS.neg_lt he) hC'.side h2 h2' hr

/-! ### Flips -/

namespace Diagonals

variable {S S' : FlatTri T} {e e' a b c d : HE}

theorem opposite (h : Diagonals S S' e e' a b c d) : Diagonals S S' (neg e) (neg e') c d a b := by
  refine ⟨h.shut, h.shut', h.quad.opposite, h.quad'.opposite, ?_, h.size, ?_, ?_⟩
  · rcases h.same with rfl | rfl
    · exact .inl rfl
    · exact .inr rfl
  · intro x h1 h2
    rw [neg_neg'] at h2
    exact h.vec x h2 h1
  · intro x hx
    refine h.fx x fun hc => hx ?_
    rw [neg_neg']
    simp only [List.mem_cons, List.not_mem_nil, or_false] at hc ⊢
    tauto

theorem mem_perm (h : Diagonals S S' e e' a b c d) (x : HE) :
    x ∈ [e', b, c, neg e', d, a] ↔ x ∈ [e, a, b, neg e, c, d] := by
  simp only [List.mem_cons, List.not_mem_nil, or_false]
  rcases h.same with rfl | rfl
  · tauto
  · rw [neg_neg']; tauto

theorem section_ (h : Diagonals S S' e e' a b c d) : Diagonals S' S e' (neg e) b c d a := by
  refine ⟨h.shut', h.shut, h.quad', h.quad.opposite, ?_, h.size.symm, ?_, ?_⟩
  · rcases h.same with rfl | rfl
    · exact .inr rfl
    · exact .inl rfl
  · intro x h1 h2
    refine (h.vec x ?_ ?_).symm
    · rcases h.same with hs | hs
      · rwa [hs] at h1
      · rwa [hs, neg_neg'] at h2
    · rcases h.same with hs | hs
      · rwa [hs] at h2
      · rwa [hs] at h1
  · intro x hx
    exact (h.fx x fun hc => hx ((h.mem_perm x).2 hc)).symm

theorem inQuad_iff (h : Diagonals S S' e e' a b c d) {x : HE} : InQuad S' e x ↔ InQuad S e x := by
  have h1 : InQuad S' e x ↔ InQuad S' e' x := by
    rcases h.same with hs | hs
    · rw [hs]
    · rw [hs, inQuad_neg]
  rw [h1, Verif.inQuad_iff h.quad', Verif.inQuad_iff h.quad, h.mem_perm]

theorem lt (h : Diagonals S S' e e' a b c d) : e < S.tri.size := h.quad.lt.1

theorem lt' (h : Diagonals S S' e e' a b c d) : e < S'.tri.size := by rw [h.size]; exact h.lt

theorem layout' (h : Diagonals S S' e e' a b c d) {C : HE → Vec T} : Layout S' e C ↔ Layout S' e' C := by
  rcases h.same with hs | hs
  · rw [hs]
  · have ho := h.shut'.flat.odd e h.lt'
    rw [hs]
    refine ⟨fun hC => Layout.opposite hC ho, fun hC => ?_⟩
    have := Layout.opposite hC (by rw [neg_neg', ho, neg_neg])
    rwa [neg_neg'] at this

/-- The four outer sides. -/
theorem vecs (h : Diagonals S S' e e' a b c d) :
    S'.vec a = S.vec a ∧ S'.vec b = S.vec b ∧ S'.vec c = S.vec c ∧ S'.vec d = S.vec d ∧
    S.vec a + S.vec b + S.vec c + S.vec d = 0 := by
  obtain ⟨⟨ea, eb, ee', ec, ed⟩, ⟨ab, ae', ac, ad⟩, ⟨be', bc, bd⟩, ⟨e'c, e'd⟩, cd⟩ := h.quad.ne
  obtain ⟨g1, g2, g3, g4, g5, g6, g7, g8, g9⟩ := h.shut.flat.quad h.quad
  refine ⟨h.vec a ea.symm ae', h.vec b eb.symm be', h.vec c ec.symm e'c.symm, h.vec d ed.symm e'd.symm, ?_⟩
  calc _ = (S.vec e + S.vec a + S.vec b) + (-S.vec e + S.vec c + S.vec d) := by abel
    _ = 0 := by rw [g6, g7, add_zero]

theorem areas (h : Diagonals S S' e e' a b c d) : 0 < cross (S.vec a) (S.vec b) ∧ 0 < cross (S.vec b) (S.vec c) ∧
    0 < cross (S.vec c) (S.vec d) ∧ 0 < cross (S.vec d) (S.vec a) := by
  obtain ⟨g1, g2, g3, g4, g5, g6, g7, g8, g9⟩ := h.shut.flat.quad h.quad
  obtain ⟨f1, f2, f3, f4, f5, f6, f7, f8, f9⟩ := h.shut'.flat.quad h.quad'
  obtain ⟨v1, v2, v3, v4, -⟩ := h.vecs
  rw [v2, v3] at f8
  rw [v4, v1] at f9
  exact ⟨g8, f8, g9, f9⟩

/-- Layouts before and after the flip where the outer sides are at the same place. -/
def Fits (S S' : FlatTri T) (e : HE) (C C' : HE → Vec T) : Prop :=
  Layout S e C ∧ Layout S' e C' ∧ ∀ x, InQuad S e x → x ≠ e → x ≠ neg e → C' x = C x

theorem fits (h : Diagonals S S' e e' a b c d) {C C' : HE → Vec T} (hC : Fits S S' e C C') :
    C' a = C a ∧ C' b = C b ∧ C' c = C c ∧ C' d = C d ∧
    C b = C a + S.vec a ∧ C e = C a + (S.vec a + S.vec b) ∧ C c = C a + (S.vec a + S.vec b) ∧
      C d = C a + (S.vec a + S.vec b + S.vec c) ∧ C (neg e) = C a ∧ C' (neg e') = C b ∧ C' e' = C d := by
  obtain ⟨⟨ea, eb, ee', ec, ed⟩, ⟨ab, ae', ac, ad⟩, ⟨be', bc, bd⟩, ⟨e'c, e'd⟩, cd⟩ := h.quad.ne
  have k := fun x (hx : x ∈ [e, a, b, neg e, c, d]) => hC.2.2 x ((Verif.inQuad_iff h.quad).2 hx)
  have ka := k a (by simp) ea.symm ae'
  have kb := k b (by simp) eb.symm be'
  have kc := k c (by simp) ec.symm e'c.symm
  have kd := k d (by simp) ed.symm e'd.symm
  obtain ⟨c1, c2, c3, c4, c5⟩ := Layout.corners hC.1 h.shut.flat h.quad
  obtain ⟨d1, d2, d3, d4, d5⟩ := Layout.corners (h.layout'.1 hC.2.1) h.shut'.flat h.quad'
  refine ⟨ka, kb, kc, kd, c1, c2, c3, c4, c5, by rw [d5, kb], by rw [d2, ← d3, kd]⟩

theorem exists_fits (h : Diagonals S S' e e' a b c d) : ∃ C C', Fits S S' e C C' := by
  obtain ⟨⟨ea, eb, ee', ec, ed⟩, ⟨ab, ae', ac, ad⟩, ⟨be', bc, bd⟩, ⟨e'c, e'd⟩, cd⟩ := h.quad.ne
  obtain ⟨⟨e'b, e'c', e'e'', e'd', e'a⟩, -, ⟨ce'', -, -⟩, ⟨e''d, e''a⟩, -⟩ := h.quad'.ne
  obtain ⟨g1, g2, g3, g4, g5, g6, g7, g8, g9⟩ := h.shut.flat.quad h.quad
  obtain ⟨f1, f2, f3, f4, f5, f6, f7, f8, f9⟩ := h.shut'.flat.quad h.quad'
  obtain ⟨v1, v2, v3, v4, v5⟩ := h.vecs
  rw [v2, v3] at f6
  rw [v4, v1] at f7
  have be'' : b ≠ neg e' := h.quad'.ne.2.1.2.1
  refine ⟨fun x => if x = a ∨ x = neg e then 0 else if x = b then S.vec a else if x = d then S.vec a + S.vec b + S.vec c
    else S.vec a + S.vec b, fun x => if x = a then 0 else if x = b ∨ x = neg e' then S.vec a else if x = c then
      S.vec a + S.vec b else S.vec a + S.vec b + S.vec c, ?_, ?_, ?_⟩
  · refine ⟨fun x hx => ?_, ?_⟩
    · rw [Verif.inQuad_iff h.quad] at hx
      unfold Tri.nextInFace
      rcases mem_six_cases hx with rfl | rfl | rfl | rfl | rfl | rfl
      · rw [h.quad.fe, if_pos (.inl rfl), if_neg (by tauto), if_neg eb, if_neg ed, ← g6]; abel
      · rw [h.quad.fa, if_neg (by tauto), if_pos rfl, if_pos (.inl rfl)]; abel
      · rw [h.quad.fb, if_neg (by tauto), if_neg eb, if_neg ed, if_neg (by tauto), if_pos rfl]
      · rw [h.quad.fe', if_neg (by tauto), if_neg bc.symm, if_neg cd, if_pos (.inr rfl), zero_add, g1, ← sub_eq_zero, ← g6]
        abel
      · rw [h.quad.fc, if_neg (by tauto), if_neg bd.symm, if_pos rfl, if_neg (by tauto), if_neg bc.symm, if_neg cd]
      · rw [h.quad.fd, if_pos (.inr rfl), if_neg (by tauto), if_neg bd.symm, if_pos rfl, v5]
    · rw [if_pos (.inr rfl), if_neg (by tauto), if_neg eb, if_neg ed, ← g6]; abel
  · rw [h.layout']
    refine ⟨fun x hx => ?_, ?_⟩
    · rw [Verif.inQuad_iff h.quad'] at hx
      unfold Tri.nextInFace
      rcases mem_six_cases hx with rfl | rfl | rfl | rfl | rfl | rfl
      · rw [h.quad'.fe, if_neg ab.symm, if_pos (.inl rfl), if_neg e'a, if_neg (by tauto), if_neg e'c', ← sub_eq_zero,
          ← neg_eq_zero, ← f6]
        abel
      · rw [h.quad'.fa, if_neg ac.symm, if_neg (by tauto), if_pos rfl, if_neg ab.symm, if_pos (.inl rfl), v2]
      · rw [h.quad'.fb, if_neg e'a, if_neg (by tauto), if_neg e'c', if_neg ac.symm, if_neg (by tauto), if_pos rfl, v3]
      · rw [h.quad'.fe', if_neg ad.symm, if_neg (by tauto), if_neg cd.symm, if_neg e''a, if_pos (.inr rfl), f1,
          ← sub_eq_zero, ← f6]
        abel
      · rw [h.quad'.fc, if_pos rfl, if_neg ad.symm, if_neg (by tauto), if_neg cd.symm, v4, v5]
      · rw [h.quad'.fd, if_neg e''a, if_pos (.inr rfl), if_pos rfl, v1, zero_add]
    · rw [if_neg e''a, if_pos (.inr rfl), if_neg e'a, if_neg (by tauto), if_neg e'c', ← sub_eq_zero, ← neg_eq_zero, ← f6]
      abel
  · intro x hx h1 h2
    rw [Verif.inQuad_iff h.quad] at hx
    rcases mem_six_cases hx with rfl | rfl | rfl | rfl | rfl | rfl
    · exact absurd rfl h1
    · simp
    · simp [ab.symm, be']
    · exact absurd rfl h2
    · simp [ac.symm, bc.symm, ce'', cd, e'c.symm]
    · simp [ad.symm, bd.symm, cd.symm, e''d.symm, e'd.symm]

/-! #### The formula -/

theorem crossed_outer (h : Diagonals S S' e e' a b c d) (α β γ : T) :
    S'.crossed ⟨neg e', α, β, γ⟩ = (cross (S.vec b) (S.vec c) * β + γ * cross (S.vec a) (S.vec b),
      cross (S.vec b) (S.vec c) * α + γ * cross (S.vec c) (S.vec d), -(γ * cross (S.vec d) (S.vec a))) := by
  obtain ⟨v1, v2, v3, v4, v5⟩ := h.vecs
  have hd : S.vec d = -(S.vec a + S.vec b + S.vec c) := by rw [eq_neg_iff_add_eq_zero, add_comm]; exact v5
  unfold crossed Tri.nextInFace Tri.previousInFace
  simp only [neg_neg']
  rw [h.shut'.prev, h.quad'.fe, h.quad'.fa, h.quad'.fe', v2, v3, v4, hd]
  unfold cross
  simp only [neg_x, neg_y, add_x, add_y]
  refine Prod.ext ?_ (Prod.ext ?_ ?_) <;> simp only <;> ring

theorem crossed_inner (h : Diagonals S S' e e' a b c d) (α β γ : T) :
    S'.crossed ⟨e', α, β, γ⟩ = (cross (S.vec d) (S.vec a) * β + γ * cross (S.vec c) (S.vec d),
      cross (S.vec d) (S.vec a) * α + γ * cross (S.vec a) (S.vec b), -(γ * cross (S.vec b) (S.vec c))) := by
  obtain ⟨v1, v2, v3, v4, v5⟩ := h.vecs
  have hd : S.vec d = -(S.vec a + S.vec b + S.vec c) := by rw [eq_neg_iff_add_eq_zero, add_comm]; exact v5
  unfold crossed Tri.nextInFace Tri.previousInFace
  simp only
  rw [h.shut'.prev, h.quad'.fe', h.quad'.fc, h.quad'.fe, v1, v2, v4, hd]
  unfold cross
  simp only [neg_x, neg_y, add_x, add_y]
  refine Prod.ext ?_ (Prod.ext ?_ ?_) <;> simp only <;> ring

/-- The weights after the flip for a point with weights `μ` in the face of `e`. -/
def image (S S' : FlatTri T) (e : HE) (μa μb μc : T) : Point T :=
  let CD := S'.tri.nextInFace (S.tri.nextInFace e)
  let ν := S'.crossed ⟨CD, 0, 0, 1⟩
  let Q : Point T := ⟨neg CD, μb * ν.1, (ν.1 + ν.2.1 + ν.2.2) * μc + μb * ν.2.1, (ν.1 + ν.2.1 + ν.2.2) * μa + μb * ν.2.2⟩
  if Q.a < 0 ∨ Q.b < 0 ∨ Q.c < 0 then ⟨CD, (S'.crossed Q).1, (S'.crossed Q).2.1, (S'.crossed Q).2.2⟩
  else ⟨neg CD, (S'.rotated Q (neg CD)).1, (S'.rotated Q (neg CD)).2.1, (S'.rotated Q (neg CD)).2.2⟩

theorem image_eq (h : Diagonals S S' e e' a b c d) {μa μb μc : T} (hμ : 0 ≤ μa ∧ 0 ≤ μb ∧ 0 ≤ μc) :
    let X := cross (S.vec b) (S.vec c)
    let Y := cross (S.vec d) (S.vec a)
    let Z := cross (S.vec a) (S.vec b)
    let W := cross (S.vec c) (S.vec d)
    X + Y = Z + W ∧
    (0 ≤ X * μa - μb * Y ∧ image S S' e μa μb μc = ⟨e', μb * Z, X * μc + μb * W, X * μa - μb * Y⟩ ∨
      X * μa - μb * Y < 0 ∧ image S S' e μa μb μc = ⟨neg e', X * (Y * μc + μa * W), X * μa * Z, X * (μb * Y - X * μa)⟩) := by
  intro X Y Z W
  obtain ⟨p1, p2, p3, p4⟩ := h.areas
  have hXY : X + Y = Z + W := by
    obtain ⟨v1, v2, v3, v4, v5⟩ := h.vecs
    have hd : S.vec d = -(S.vec a + S.vec b + S.vec c) := by rw [eq_neg_iff_add_eq_zero, add_comm]; exact v5
    simp only [X, Y, Z, W, hd]
    unfold cross
    simp only [neg_x, neg_y, add_x, add_y]
    ring
  refine ⟨hXY, ?_⟩
  have hCD : S'.tri.nextInFace (S.tri.nextInFace e) = neg e' := by
    unfold Tri.nextInFace
    rw [h.quad.fe, h.quad'.fd]
  have hν : S'.crossed ⟨neg e', 0, 0, 1⟩ = (Z, W, -Y) := by
    rw [h.crossed_outer]
    simp [Z, W, Y]
  have hsum : Z + W + -Y = X := by linear_combination -hXY
  unfold image
  simp only [hCD, hν, neg_neg', hsum]
  have n1 : ¬ μb * Z < 0 := not_lt.2 (mul_nonneg hμ.2.1 p1.le)
  have n2 : ¬ X * μc + μb * W < 0 := not_lt.2 (add_nonneg (mul_nonneg p2.le hμ.2.2) (mul_nonneg hμ.2.1 p3.le))
  have e3 : X * μa + μb * -Y = X * μa - μb * Y := by ring
  rw [e3]
  by_cases hneg : X * μa - μb * Y < 0
  · right
    refine ⟨hneg, ?_⟩
    rw [if_pos (.inr (.inr hneg)), h.crossed_inner]
    change (⟨_, Y * (X * μc + μb * W) + (X * μa - μb * Y) * W, Y * (μb * Z) + (X * μa - μb * Y) * Z,
      -((X * μa - μb * Y) * X)⟩ : Point T) = _
    congr 1 <;> ring
  · left
    refine ⟨not_lt.1 hneg, ?_⟩
    rw [if_neg (by tauto)]
    rw [show S'.rotated ⟨e', μb * Z, X * μc + μb * W, X * μa - μb * Y⟩ e' = (μb * Z, X * μc + μb * W, X * μa - μb * Y) from
      if_pos rfl]

theorem image_unmoved (h : Diagonals S S' e e' a b c d) {μa μb μc : T} (hp : Describes S ⟨e, μa, μb, μc⟩) :
    Unmoved S S' e ⟨e, μa, μb, μc⟩ (image S S' e μa μb μc) := by
  obtain ⟨hXY, hc⟩ := h.image_eq hp.nonneg
  obtain ⟨p1, p2, p3, p4⟩ := h.areas
  obtain ⟨n1, n2, n3⟩ := hp.nonneg
  have n4 := hp.pos
  simp only at n1 n2 n3 n4
  have l' : e' < S'.tri.size := h.quad'.lt.1
  have hq := h.quad
  have i1 : InQuad S e e := .inl rfl
  obtain ⟨v1, v2, v3, v4, v5⟩ := h.vecs
  have hd : S.vec d = -(S.vec a + S.vec b + S.vec c) := by rw [eq_neg_iff_add_eq_zero, add_comm]; exact v5
  refine .inr ⟨i1, ?_⟩
  rcases hc with ⟨hs, he⟩ | ⟨hs, he⟩
  · rw [he]
    refine ⟨?_, hp, ⟨l', ⟨mul_nonneg n2 p1.le, add_nonneg (mul_nonneg p2.le n3) (mul_nonneg n2 p3.le), hs⟩, ?_⟩, ?_⟩
    · rw [h.inQuad_iff, Verif.inQuad_iff h.quad, ← h.mem_perm]; simp
    · have : 0 < cross (S.vec b) (S.vec c) * (μa + μb + μc) := mul_pos p2 n4
      simp only
      linear_combination this + μb * hXY
    · intro C C' h1 h2 h3
      obtain ⟨ka, kb, kc, kd, c1, c2, c3, c4, c5, d1, d2⟩ := h.fits ⟨h1, h2, h3⟩
      unfold place Tri.nextInFace
      simp only
      rw [h.quad.fe, h.quad.fa, h.quad'.fe, h.quad'.fa, d2, kb, kc, c2, c1, c3, c4, hd]
      unfold cross
      generalize S.vec a = va
      generalize S.vec b = vb
      generalize S.vec c = vc
      ext
      · simp only [smul_x, add_x, add_y, neg_x, neg_y]; ring
      · simp only [smul_y, add_x, add_y, neg_x, neg_y]; ring
  · rw [he]
    have hX := p2
    refine ⟨?_, hp, ⟨h.quad'.lt.2.2.2.2.2, ⟨?_, ?_, ?_⟩, ?_⟩, ?_⟩
    · rw [h.inQuad_iff, Verif.inQuad_iff h.quad, ← h.mem_perm]; simp
    · exact mul_nonneg hX.le (add_nonneg (mul_nonneg p4.le n3) (mul_nonneg n1 p3.le))
    · exact mul_nonneg (mul_nonneg hX.le n1) p1.le
    · exact mul_nonneg hX.le (by linarith)
    · have : 0 < cross (S.vec b) (S.vec c) * cross (S.vec d) (S.vec a) * (μa + μb + μc) := mul_pos (mul_pos p2 p4) n4
      simp only
      linear_combination this + μa * cross (S.vec b) (S.vec c) * hXY
    · intro C C' h1 h2 h3
      obtain ⟨ka, kb, kc, kd, c1, c2, c3, c4, c5, d1, d2⟩ := h.fits ⟨h1, h2, h3⟩
      unfold place Tri.nextInFace
      simp only
      rw [h.quad.fe, h.quad.fa, h.quad'.fe', h.quad'.fc, d1, kd, ka, c2, c1, c4, hd]
      unfold cross
      generalize S.vec a = va
      generalize S.vec b = vb
      generalize S.vec c = vc
      ext
      · simp only [smul_x, add_x, add_y, neg_x, neg_y]; ring
      · simp only [smul_y, add_x, add_y, neg_x, neg_y]; ring

/-! #### Positions -/

theorem _root_.Verif.layout_neg {S : FlatTri T} {e : HE} {C : HE → Vec T} (hv : S.vec (neg e) = -S.vec e) :
    Layout S (neg e) C ↔ Layout S e C := by
  refine ⟨fun hC => ?_, fun hC => Layout.opposite hC hv⟩
  have := Layout.opposite hC (by rw [neg_neg', hv, neg_neg])
  rwa [neg_neg'] at this

theorem unmoved_neg (h : Diagonals S S' e e' a b c d) {p p' : Point T} :
    Unmoved S S' (neg e) p p' ↔ Unmoved S S' e p p' := by
  have o := h.shut.flat.odd e h.lt
  have o' := h.shut'.flat.odd e h.lt'
  unfold Unmoved
  simp only [inQuad_neg, layout_neg o, layout_neg o', neg_neg']
  have : ∀ C C' : HE → Vec T, (∀ x, InQuad S e x → x ≠ neg e → x ≠ e → C' x = C x) ↔
      (∀ x, InQuad S e x → x ≠ e → x ≠ neg e → C' x = C x) := fun C C' =>
    ⟨fun g x h1 h2 h3 => g x h1 h3 h2, fun g x h1 h2 h3 => g x h1 h3 h2⟩
  simp only [this]

theorem unmoved_symm (h : Diagonals S S' e e' a b c d) {p p' : Point T} (hu : Unmoved S S' e p p') :
    Unmoved S' S e p' p := by
  rcases hu with ⟨h1, h2⟩ | ⟨h1, h2, h3, h4, h5⟩
  · exact .inl ⟨by rw [h2, h.inQuad_iff]; exact h1, h2.symm⟩
  · exact .inr ⟨h2, h1, h4, h3, fun C C' g1 g2 g3 =>
      (h5 C' C g2 g1 fun x i1 i2 i3 => (g3 x (h.inQuad_iff.2 i1) i2 i3).symm).symm⟩

theorem describes_iff (h : Diagonals S S' e e' a b c d) {p : Point T} : Describes S' p ↔ Describes S p :=
  ⟨fun k => ⟨by rw [← h.size]; exact k.lt, k.nonneg, k.pos⟩, fun k => ⟨by rw [h.size]; exact k.lt, k.nonneg, k.pos⟩⟩

theorem unmoved_describes (h : Diagonals S S' e e' a b c d) {p p' : Point T} (hu : Unmoved S S' e p p') :
    Describes S' p' ↔ Describes S p := by
  rcases hu with ⟨h1, h2⟩ | ⟨h1, h2, h3, h4, h5⟩
  · rw [h2, h.describes_iff]
  · exact ⟨fun _ => h3, fun _ => h4⟩

/-- Positions in the quadrilateral at the same place before the flip are at the same place after the flip. -/
theorem same_in (h : Diagonals S S' e e' a b c d) {p q p' q' : Point T} (hp : Unmoved S S' e p p')
    (hq : Unmoved S S' e q q') (i : InQuad S e p.face) (j : InQuad S e q.face)
    (hs : ∀ C, Layout S e C → SamePlace S S C C p q) : SamePosition S' p' q' := by
  rcases hp with ⟨h1, h2⟩ | ⟨h1, h2, h3, h4, h5⟩
  · exact absurd i h1
  rcases hq with ⟨g1, g2⟩ | ⟨g1, g2, g3, g4, g5⟩
  · exact absurd j g1
  obtain ⟨C, C', c1, c2, c3⟩ := h.exists_fits
  refine same_of_place h.shut' h.lt' c2 h4 g4 h2 g2 ?_
  have k1 : SamePlace S S' C C' p p' := h5 C C' c1 c2 c3
  have k2 : SamePlace S S' C C' q q' := g5 C C' c1 c2 c3
  exact (k1.symm.trans h3.pos (hs C c1)).trans g3.pos k2

/-- There is only one position after the flip. -/
theorem unique (h : Diagonals S S' e e' a b c d) {p p' p'' : Point T} (hp : Unmoved S S' e p p')
    (hq : Unmoved S S' e p p'') : SamePosition S' p' p'' := by
  by_cases i : InQuad S e p.face
  · exact h.same_in hp hq i i fun C _ => rfl
  · rcases hp with ⟨h1, h2⟩ | ⟨h1, h2, h3, h4, h5⟩
    · rcases hq with ⟨g1, g2⟩ | ⟨g1, g2, g3, g4, g5⟩
      · rw [h2, g2]; exact .refl _
      · exact absurd g1 i
    · exact absurd h1 i

theorem unmoved_of_place (_ : Diagonals S S' e e' a b c d) {p r p' : Point T} (hp : Describes S p) (i : InQuad S e p.face)
    (hw : r.weight = p.weight) (hC : ∀ C, place S C r = place S C p) (j : InQuad S e r.face)
    (hr : Unmoved S S' e r p') : Unmoved S S' e p p' := by
  rcases hr with ⟨h1, h2⟩ | ⟨h1, h2, h3, h4, h5⟩
  · exact absurd j h1
  · refine .inr ⟨i, h2, hp, h4, fun C C' g1 g2 g3 => ?_⟩
    have := h5 C C' g1 g2 g3
    rw [hC] at this
    unfold Point.weight at hw
    rw [hw] at this
    exact this

/-- The position still exists after the flip. -/
theorem exists_unmoved (h : Diagonals S S' e e' a b c d) {p : Point T} (hp : Describes S p) :
    ∃ p', Unmoved S S' e p p' := by
  by_cases i : InQuad S e p.face
  · obtain ⟨⟨x, μa, μb, μc⟩, h1, h2, h3, h4, h5⟩ := to_diagonal h.shut h.lt hp i
    rcases h5 with rfl | rfl
    · exact ⟨_, h.unmoved_of_place hp i h3 h4 (.inl rfl) (h.image_unmoved h2)⟩
    · exact ⟨_, h.unmoved_of_place hp i h3 h4 (inQuad_neg.1 (.inl rfl)) (h.unmoved_neg.1 (h.opposite.image_unmoved h2))⟩
  · exact ⟨p, .inl ⟨i, rfl⟩⟩

/-- Nothing happens on the sides that are not flipped. -/
theorem unmoved_side (h : Diagonals S S' e e' a b c d) {x : HE} (h1 : x ≠ e) (h2 : x ≠ neg e) {α β : T}
    (hp : Describes S ⟨x, α, β, 0⟩) : Unmoved S S' e ⟨x, α, β, 0⟩ ⟨x, α, β, 0⟩ := by
  by_cases i : InQuad S e x
  · refine .inr ⟨i, h.inQuad_iff.2 i, hp, h.describes_iff.2 hp, fun C C' g1 g2 g3 => ?_⟩
    unfold place
    simp only [zero_smul]
    rw [g1.side x i, g2.side x (h.inQuad_iff.2 i), g3 x i h1 h2, h.vec x h1 h2]
  · exact .inl ⟨i, rfl⟩

theorem next_away (h : Diagonals S S' e e' a b c d) {x : HE} (hx : ¬ InQuad S e x) :
    S'.tri.nextInFace x = S.tri.nextInFace x := h.fx x (by rwa [← Verif.inQuad_iff h.quad])

/-- The same position before the flip is the same position after the flip. -/
theorem same_position (h : Diagonals S S' e e' a b c d) {p q : Point T} (hs : SamePosition S p q) (hd : Describes S p) :
    ∀ {p' q'}, Unmoved S S' e p p' → Unmoved S S' e q q' → SamePosition S' p' q' := by
  induction hs with
  | @scale x α β γ l hl =>
    intro p' q' hp hq
    by_cases i : InQuad S e x
    · refine h.same_in hp hq i i fun C _ => ?_
      unfold SamePlace place Point.weight
      simp only
      rw [← mul_add, ← mul_add, mul_smul l α, mul_smul l β, mul_smul l γ, ← smul_add, ← smul_add, smul_smul, mul_comm l]
    · rcases hp with ⟨h1, rfl⟩ | ⟨h1, -⟩
      · rcases hq with ⟨h1, rfl⟩ | ⟨h1, -⟩
        · exact .scale l hl
        · exact absurd h1 i
      · exact absurd h1 i
  | @rotate x α β γ =>
    intro p' q' hp hq
    by_cases i : InQuad S e x
    · refine h.same_in hp hq i ((inQuad_next h.shut h.lt).2 i) fun C _ => ?_
      have := place_next (p := ⟨x, α, β, γ⟩) (C := C) h.shut
      unfold SamePlace
      simp only at this
      rw [this]
      congr 1
      unfold Point.weight
      ring
    · rcases hp with ⟨h1, rfl⟩ | ⟨h1, -⟩
      · rcases hq with ⟨h1, rfl⟩ | ⟨h1, -⟩
        · rw [← h.next_away i]
          exact .rotate
        · exact absurd ((inQuad_next h.shut h.lt).1 h1) i
      · exact absurd h1 i
  | @glue x α β =>
    intro p' q' hp hq
    have o := h.shut.flat.odd e h.lt
    by_cases h1 : x = e ∨ x = neg e
    · have i : InQuad S e x ∧ InQuad S e (neg x) := by
        unfold InQuad
        rcases h1 with rfl | rfl
        · tauto
        · rw [neg_neg']; tauto
      refine h.same_in hp hq i.1 i.2 fun C hC => ?_
      unfold SamePlace place Point.weight
      simp only [zero_smul, add_zero]
      rw [hC.side x i.1, hC.side _ i.2]
      have hg : C (neg x) = C x + S.vec x ∧ S.vec (neg x) = -S.vec x := by
        rcases h1 with rfl | rfl
        · exact ⟨hC.glued, o⟩
        · rw [neg_neg', hC.glued, o]
          exact ⟨by abel, by rw [neg_neg]⟩
      rw [hg.1, hg.2, add_neg_cancel_right, add_comm β α, add_comm (α • C x)]
    · rw [not_or] at h1
      have d' : Describes S ⟨neg x, β, α, 0⟩ := ((SamePosition.glue).describes h.shut).1 hd
      have k1 := h.unmoved_side h1.1 h1.2 hd
      have k2 := h.unmoved_side (x := neg x) (fun hc => h1.2 (by rw [← hc, neg_neg'])) (fun hc => h1.1 (neg_inj'.1 hc)) d'
      exact ((h.unique hp k1).trans .glue).trans (h.unique k2 hq)
  | refl p => exact fun hp hq => h.unique hp hq
  | symm hs ih =>
    intro p' q' hp hq
    exact (ih ((hs.describes h.shut).2 hd) hq hp).symm
  | trans h1 h2 ih1 ih2 =>
    intro p' q' hp hq
    have d2 := (h1.describes h.shut).1 hd
    obtain ⟨r', hr⟩ := h.exists_unmoved d2
    exact (ih1 hd hp hr).trans (ih2 d2 hr hq)

/-- The surface before the flip seen from the surface after the flip. -/
theorem unmoved_back (h : Diagonals S S' e e' a b c d) {p p' : Point T} :
    Unmoved S' S e p' p ↔ Unmoved S' S e' p' p := by
  rcases h.same with hs | hs
  · rw [hs]
  · have := h.section_.unmoved_neg (p := p') (p' := p)
    rw [hs, neg_neg'] at this
    rw [hs]
    exact this

theorem same_iff (h : Diagonals S S' e e' a b c d) {p q p' q' : Point T} (hd : Describes S p)
    (hp : SameAfterFlip S S' e p p') (hq : SameAfterFlip S S' e q q') : SamePosition S p q ↔ SamePosition S' p' q' := by
  obtain ⟨r, r', h1, h2, h3⟩ := hp
  obtain ⟨s, s', g1, g2, g3⟩ := hq
  constructor
  · intro hs
    have : SamePosition S r s := (h1.symm.trans hs).trans g1
    exact (h3.symm.trans (h.same_position this ((h1.describes h.shut).1 hd) h2 g2)).trans g3
  · intro hs
    have : SamePosition S' r' s' := (h3.trans hs).trans g3.symm
    have d' := (h.unmoved_describes h2).2 ((h1.describes h.shut).1 hd)
    have k := h.section_.same_position this d' (h.unmoved_back.1 (h.unmoved_symm h2)) (h.unmoved_back.1 (h.unmoved_symm g2))
    exact (h1.trans k).trans g1.symm

/-! #### The code -/

theorem flipPoint_eq (dbg : Bool) (S S' : FlatTri T) (e : HE) (p : Point T) : S.flipPoint dbg S' e p =
    (if !S.pointIsIn p e && !S.pointIsIn p (neg e) then do
      let r ← S.coordinates p p.face
      S'.point dbg p.face r.1 r.2.1 r.2.2
    else do
      let r ← S.coordinates p (if S.pointIsIn p e then e else neg e)
      let q := image S S' (if S.pointIsIn p e then e else neg e) r.1 r.2.1 r.2.2
      S'.point dbg q.face q.a q.b q.c) := by
  unfold flipPoint image
  refine if_congr Iff.rfl rfl ?_
  simp only
  cases S.coordinates p (if S.pointIsIn p e then e else neg e) with
  | error _ => rfl
  | ok r =>
    simp only [bind, Except.bind]
    generalize (if S.pointIsIn p e = true then e else neg e) = x
    split_ifs <;> rfl

theorem flipPoint (h : Diagonals S S' e e' a b c d) (dbg : Bool) {p : Point T} (hp : Normal S p) :
    ∃ p' d', S.flipPoint dbg S' e p = .ok p' ∧ Describes S' d' ∧ S'.point dbg d'.face d'.a d'.b d'.c = .ok p' ∧
      SameAfterFlip S S' e p p' := by
  rw [flipPoint_eq]
  have key : ∀ r r' : Point T, SamePosition S p r → Unmoved S S' e r r' →
      ∃ p' d', S'.point dbg r'.face r'.a r'.b r'.c = .ok p' ∧ Describes S' d' ∧
        S'.point dbg d'.face d'.a d'.b d'.c = .ok p' ∧ SameAfterFlip S S' e p p' := by
    intro r r' h1 h2
    have d1 := (h.unmoved_describes h2).2 ((h1.describes h.shut).1 hp.toDescribes)
    obtain ⟨q, q1, q2, q3⟩ := h.shut'.point dbg d1
    exact ⟨q, r', q1, d1, q1, r, r', h1, h2, q3⟩
  by_cases hin : S.pointIsIn p e = true
  · rw [hin]
    obtain ⟨r, h1, h2⟩ := h.shut.coordinates hp h.lt hin
    simp only [Bool.not_true, Bool.false_and, Bool.false_eq_true, if_false, if_true, h1, bind, Except.bind]
    exact key _ _ h2 (h.image_unmoved ((h2.describes h.shut).1 hp.toDescribes))
  · by_cases hin' : S.pointIsIn p (neg e) = true
    · rw [Bool.not_eq_true] at hin
      rw [hin, hin']
      obtain ⟨r, h1, h2⟩ := h.shut.coordinates hp (h.shut.neg_lt h.lt) hin'
      simp only [Bool.not_true, Bool.and_false, Bool.false_eq_true, if_false, h1, bind, Except.bind]
      exact key _ _ h2 (h.unmoved_neg.1 (h.opposite.image_unmoved ((h2.describes h.shut).1 hp.toDescribes)))
    · obtain ⟨r, h1, h2⟩ := h.shut.coordinates hp hp.lt (h.shut.in_of_same hp (.refl _))
      have i : ¬ InQuad S e p.face := by
        intro hi
        obtain ⟨s, s1, -, -, -, s5⟩ := to_diagonal h.shut h.lt hp.toDescribes hi
        have := h.shut.in_of_same hp s1
        rcases s5 with s5 | s5
        · exact hin (s5 ▸ this)
        · exact hin' (s5 ▸ this)
      rw [Bool.not_eq_true] at hin hin'
      rw [hin, hin']
      simp only [Bool.not_false, Bool.and_self, if_true, h1, bind, Except.bind]
      exact key ⟨p.face, r.1, r.2.1, r.2.2⟩ ⟨p.face, r.1, r.2.1, r.2.2⟩ h2 (.inl ⟨i, rfl⟩)

end Diagonals

theorem Spec.Closed.diagonals {K : Type} [Field K] [LinearOrder K] [IsStrictOrderedRing K] {A : Option (Approx T K)} {dbg : Bool} {S S' : FlatTri T} (h : Closed dbg S)
    {e : HE} (hf : S.flip A dbg e = (S', .ok ())) (h' : Closed dbg S') : ∃ a b c d, Diagonals S S' e e a b c d := by
  obtain ⟨h1, a, b, c, d, q, f, p1, p2⟩ := h.shut.flat.flip_ok A dbg hf
  have hs : S'.tri.size = S.tri.size := f.tri.vsize
  have q' := h'.shut.quad (e := e) (by rw [hs]; exact q.lt.1)
  rw [f.tri.fe, f.tri.fb, f.tri.fe', f.tri.fd] at q'
  exact ⟨a, b, c, d, h.shut, h'.shut, q, q', .inl rfl, hs, f.vec_e.2.2, f.tri.fx⟩

end Verif
