import Verif.Props.C22
import Verif.Props.C30
import Verif.Spec.LinearDeformation
import Verif.Lemmas.Path

/-!
# Lemmas about linear deformations
-/

namespace Verif.FlatTri

open Spec Tri Vec

set_option linter.unusedSectionVars false

variable {T : Type} [CommRing T] [LinearOrder T] [IsStrictOrderedRing T]
variable {K : Type*} [Field K] [LinearOrder K] [IsStrictOrderedRing K]

/-- The image of a surface under a linear map. -/
structure LinearImage (dbg : Bool) (S S' : FlatTri T) (a b c d : T) : Prop where
  closed : Closed dbg S
  closed' : Closed dbg S'
  det : a * d - b * c ≠ 0
  size : S'.tri.size = S.tri.size
  vec : ∀ e, S'.vec e = (S.vec e).applyMatrix a b c d
  pos : 0 < a * d - b * c → Same S.tri S'.tri
  neg : a * d - b * c < 0 → C22.Mirrored S.tri S'.tri

theorem size_of_halfEdges {C C' : Tri} (h : C'.halfEdges = C.halfEdges) : C'.size = C.size := by
  have := congrArg List.length h
  simpa [Tri.halfEdges] using this

theorem LinearImage.of_ok (A : Option (Approx T K)) {dbg : Bool} {S S' : FlatTri T} {a b c d : T} (h : Closed dbg S)
    (hm : S.applyMatrix A dbg a b c d = .ok S') : LinearImage dbg S S' a b c d := by
  obtain ⟨hd, hb⟩ := C22.of_ok A hm
  obtain ⟨S1, h1, h2, h3, h4, -, h5, h6⟩ := C22.applyMatrix_correct A h.reachable h.flat hb hd
  rw [hm] at h1; cases h1
  have hsize : S'.tri.size = S.tri.size := by
    rcases lt_or_gt_of_ne hd with hn | hp
    · exact size_of_halfEdges (h6 hn).halfEdges
    · exact size_of_halfEdges (h5 hp).halfEdges
  refine ⟨h, ⟨h2, h3, ?_⟩, hd, hsize, h4, h5, h6⟩
  rw [hasBoundary_false]
  intro e he
  rw [hsize] at he
  rcases lt_or_gt_of_ne hd with hn | hp
  · intro hx
    have := (h6 hn).nextInFace e
    unfold Tri.nextInFace Tri.previousInFace at this
    rw [hx] at this
    have h7 : S.tri.faces.inv (Verif.neg e) = Verif.neg e := neg_inj'.1 (by rw [← this, neg_neg'])
    have h8 := h.shut.nb _ (h.shut.neg_lt he)
    apply h8
    conv_lhs => rw [← h7]
    exact h.shut.flat.coh.hf.right _
  · have := (h5 hp).nextInFace e
    unfold Tri.nextInFace at this
    rw [this]
    exact h.shut.nb e he

namespace LinearImage

variable {dbg : Bool} {S S' : FlatTri T} {a b c d : T}

theorem _root_.Verif.Spec.SamePosition.mirror {S S' : FlatTri T}
    (hm : ∀ e, S'.tri.nextInFace (Verif.neg (S.tri.nextInFace e)) = Verif.neg e) {p q : Point T} (hs : SamePosition S p q) :
    SamePosition S' ⟨Verif.neg p.face, p.b, p.a, p.c⟩ ⟨Verif.neg q.face, q.b, q.a, q.c⟩ := by
  induction hs with
  | scale l hl => exact .scale l hl
  | @rotate e x y z =>
    have h1 := SamePosition.rotate (S := S') (e := Verif.neg (S.tri.nextInFace e)) (a := z) (b := y) (c := x)
    rw [hm] at h1
    exact h1.symm
  | glue =>
    simp only [neg_neg']
    simpa only [neg_neg'] using (SamePosition.glue (S := S')).symm
  | refl p => exact .refl _
  | symm _ ih => exact ih.symm
  | trans _ _ ih1 ih2 => exact ih1.trans ih2

theorem _root_.Verif.Spec.SamePosition.copy {S S' : FlatTri T} (hm : ∀ e, S'.tri.nextInFace e = S.tri.nextInFace e)
    {p q : Point T} (hs : SamePosition S p q) : SamePosition S' p q := by
  induction hs with
  | scale l hl => exact .scale l hl
  | @rotate e x y z =>
    have h1 := SamePosition.rotate (S := S') (e := e) (a := x) (b := y) (c := z)
    rw [hm] at h1
    exact h1
  | glue => exact .glue
  | refl p => exact .refl _
  | symm _ ih => exact ih.symm
  | trans _ _ ih1 ih2 => exact ih1.trans ih2

theorem same (h : LinearImage dbg S S' a b c d) {p q : Point T} (hs : SamePosition S p q) :
    SamePosition S' (imagePosition (a * d - b * c) p) (imagePosition (a * d - b * c) q) := by
  unfold imagePosition
  rcases lt_or_gt_of_ne h.det with hn | hp
  · rw [if_neg (not_lt.2 hn.le), if_neg (not_lt.2 hn.le)]
    refine hs.mirror fun e => ?_
    rw [(h.neg hn).nextInFace, neg_neg']
    exact congrArg _ (h.closed.shut.flat.coh.hf.left e)
  · rw [if_pos hp, if_pos hp]
    exact hs.copy (h.pos hp).nextInFace

theorem same_back (h : LinearImage dbg S S' a b c d) {p q : Point T} (hs : SamePosition S' p q) :
    SamePosition S (imagePosition (a * d - b * c) p) (imagePosition (a * d - b * c) q) := by
  unfold imagePosition
  rcases lt_or_gt_of_ne h.det with hn | hp
  · rw [if_neg (not_lt.2 hn.le), if_neg (not_lt.2 hn.le)]
    refine hs.mirror fun e => ?_
    rw [(h.neg hn).nextInFace, neg_neg']
    exact h.closed.shut.flat.coh.hf.right _
  · rw [if_pos hp, if_pos hp]
    exact hs.copy fun e => ((h.pos hp).nextInFace e).symm

theorem describes (h : LinearImage dbg S S' a b c d) {p : Point T} (hp : Describes S p) : Describes S' p :=
  ⟨h.size ▸ hp.lt, hp.nonneg, hp.pos⟩

/-- The point is constructed with the same weights in the face of the codomain. -/
theorem point (h : LinearImage dbg S S' a b c d) {p : Point T} (hp : Describes S p) :
    ∃ p', linearPoint dbg S S' p = .ok p' ∧ C30.Created dbg S' p p' := by
  obtain ⟨p', h1, -⟩ := C30.point_accepts h.closed' (h.describes hp)
  have hc : S.coordinates p p.face = .ok (p.a, p.b, p.c) := by
    unfold FlatTri.coordinates pointIsIn sides rotated
    simp
  refine ⟨p', ?_, h1⟩
  unfold linearPoint
  rw [hc]
  exact h1.2

end LinearImage

theorem Normal.weights {dbg : Bool} {S : FlatTri T} (h : Closed dbg S) {δ p : Point T} (hp : C30.Created dbg S δ p)
    {e : HE} {x y : T} (hs : SamePosition S δ ⟨e, x, y, 0⟩) : p.c = 0 := by
  have h1 := (C30.on_correct h hp (e := e) (((hs.describes h.shut).1 hp.1).lt)).2 ⟨x, y, hs⟩
  by_contra hc
  unfold pointIsOn vertexOf edgeOf at h1
  simp [hc] at h1

end Verif.FlatTri
