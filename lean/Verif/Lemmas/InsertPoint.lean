import Verif.Model.InsertPoint
import Verif.Spec.InsertAt
import Verif.Spec.InsertPoint
import Verif.Lemmas.PointCode

/-!
# Lemmas about points when a vertex is inserted in a face
-/

namespace Verif.FlatTri

open Verif Spec Tri Vec

variable {T : Type} [CommRing T] [LinearOrder T] [IsStrictOrderedRing T]

/-- The part of `SubdividesFace` that is the same for the three corners of the face. -/
structure Subdivided (S S' : FlatTri T) (n f g a b c : HE) (v : Vec T) : Prop where
  shut : S.Shut
  shut' : S'.Shut
  lt : n < S.tri.size ∧ f < S.tri.size ∧ g < S.tri.size
  lt' : n < S'.tri.size ∧ b < S'.tri.size ∧ c < S'.tri.size ∧ a < S'.tri.size
  fn : S.tri.faces.fwd n = f
  ff : S.tri.faces.fwd f = g
  fg : S.tri.faces.fwd g = n
  gn : S'.tri.faces.fwd n = neg b
  gb' : S'.tri.faces.fwd (neg b) = a
  ga : S'.tri.faces.fwd a = n
  gf : S'.tri.faces.fwd f = neg c
  gc' : S'.tri.faces.fwd (neg c) = b
  gb : S'.tri.faces.fwd b = f
  gg : S'.tri.faces.fwd g = neg a
  ga' : S'.tri.faces.fwd (neg a) = c
  gc : S'.tri.faces.fwd c = g
  va : S'.vec a = -v
  vb : S'.vec b = S.vec n - v
  vc : S'.vec c = S.vec n + S.vec f - v
  vn : S'.vec n = S.vec n
  vf : S'.vec f = S.vec f
  vg : S'.vec g = S.vec g

theorem _root_.Verif.Spec.SubdividesFace.subdivided {dbg : Bool} {S S' : FlatTri T} (h : Closed dbg S) (h' : Closed dbg S')
    {n f g a b c : HE} {v : Vec T} (hs : SubdividesFace S S' n f g a b c v) : Subdivided S S' n f g a b c v := by
  obtain ⟨⟨i1, i2, i3, i4, i5⟩, hE, ⟨-, -, j1, j2, j3⟩, ⟨-, -, k1, k2, k3⟩, ⟨-, -, l1, l2, l3⟩, -, hv, ⟨w1, w2, w3⟩, -⟩ := hs
  have hS := h.shut
  have hS' := h'.shut
  have mem : ∀ x, x ∈ S.tri.halfEdges ∨ x ∈ [a, neg a, b, neg b, c, neg c] → x < S'.tri.size := by
    intro x hx
    rw [← mem_halfEdges, hE, List.mem_append]
    exact hx
  have la : a < S'.tri.size := mem a (by simp)
  have ln := mem_halfEdges.1 i1
  have lf : f < S.tri.size := by rw [← i3]; exact hS.next_lt ln
  have lg : g < S.tri.size := by rw [← i4]; exact hS.next_lt lf
  refine ⟨hS, hS', ⟨ln, lf, lg⟩, ⟨mem n (.inl i1), mem b (by simp), mem c (by simp), la⟩, i3, i4, i5, j1, j2, j3, k1, k2, k3,
    l1, l2, l3, ?_, w2, w3, hv n i1, hv f (mem_halfEdges.2 lf), hv g (mem_halfEdges.2 lg)⟩
  have := hS'.flat.odd a la
  rw [w1] at this
  rw [this, neg_neg]

namespace Subdivided

variable {S S' : FlatTri T} {n f g a b c : HE} {v : Vec T}

theorem closed (h : Subdivided S S' n f g a b c v) : S.vec n + S.vec f + S.vec g = 0 := by
  have := h.shut.flat.closed n (h.shut.nb n h.lt.1)
  rwa [h.fn, h.ff] at this

/-- The other corners. -/
theorem rotate (h : Subdivided S S' n f g a b c v) : Subdivided S S' f g n b c a (v - S.vec n) := by
  have hc := h.closed
  refine ⟨h.shut, h.shut', ⟨h.lt.2.1, h.lt.2.2, h.lt.1⟩, ⟨?_, h.lt'.2.2.1, h.lt'.2.2.2, h.lt'.2.1⟩, h.ff, h.fg, h.fn, h.gf, h.gc', h.gb,
    h.gg, h.ga', h.gc, h.gn, h.gb', h.ga, ?_, ?_, ?_, h.vf, h.vg, h.vn⟩
  · rw [← h.gb]; exact h.shut'.next_lt h.lt'.2.1
  · rw [h.vb]; abel
  · rw [h.vc]; abel
  · rw [h.va]
    have : S.vec f + S.vec g = -S.vec n := by
      rw [eq_neg_iff_add_eq_zero, ← hc]; abel
    rw [this]; abel

/-- The new vertex is to the left of the side, as seen from the first corner. -/
theorem left (h : Subdivided S S' n f g a b c v) : 0 < cross (S.vec n) v := by
  have := h.shut'.flat.oriented n (h.shut'.nb n h.lt'.1)
  rw [h.gn, h.shut'.flat.odd b h.lt'.2.1, h.vb, h.vn] at this
  simp only [cross, neg_x, neg_y, sub_x, sub_y] at this ⊢
  linarith

/-- The vectors from the new vertex. -/
theorem lefts (h : Subdivided S S' n f g a b c v) : 0 < cross (S.vec n) v ∧ 0 < cross (S.vec f) (v - S.vec n) ∧
    0 < cross (S.vec g) v := by
  refine ⟨h.left, h.rotate.left, ?_⟩
  have := h.rotate.rotate.left
  have hc := h.closed
  have e : S.vec n + S.vec f = -S.vec g := eq_neg_of_add_eq_zero_left hc
  rw [sub_sub, e] at this
  simp only [cross, neg_x, neg_y, sub_x, sub_y] at this ⊢
  linarith

/-- The first corner in terms of the triangle of the other corners and the new vertex. -/
theorem crossed (h : Subdivided S S' n f g a b c v) : S'.crossed ⟨neg b, 0, 0, 1⟩ =
    (cross (S.vec n) (S.vec n + S.vec f), cross v (S.vec n + S.vec f) * -1, cross (S.vec n) v * -1) := by
  unfold FlatTri.crossed Tri.nextInFace Tri.previousInFace
  rw [h.shut'.prev]
  simp only [neg_neg']
  rw [h.gb, h.gf, h.gb', h.vf, h.va, h.shut'.flat.odd c h.lt'.2.2.1, h.vc]
  simp only [neg_x, neg_y, sub_x, sub_y, add_x, add_y, cross, Prod.mk.injEq]
  refine ⟨?_, ?_, ?_⟩ <;> ring

/-- The coordinates in an iteration of the loop. -/
theorem coordinates_eq (h : Subdivided S S' n f g a b c v) (ap bp cp : T) : insertCoordinates S' n ap bp cp =
    (ap * cross (S.vec n) (S.vec n + S.vec f), ap * -cross v (S.vec n + S.vec f) + bp * cross (S.vec f) (v - S.vec n),
      ap * -cross (S.vec n) v + cp * cross (S.vec f) (v - S.vec n)) := by
  unfold insertCoordinates Tri.nextInFace
  rw [h.gn]
  have hr : S'.rotated ⟨n, 1, 0, 0⟩ (neg b) = (0, 0, 1) := by
    have := h.shut'.rotated_next (p := ⟨n, 1, 0, 0⟩) h.lt'.1
    dsimp only at this
    rwa [h.gn] at this
  dsimp only
  rw [hr]
  dsimp only
  rw [h.crossed]
  simp only [sub_x, sub_y, add_x, add_y, cross, Prod.mk.injEq, true_and]
  refine ⟨?_, ?_⟩ <;> ring

/-- The point that is inserted, as a point of the domain. -/
theorem insertedPoint (h : Subdivided S S' n f g a b c v) (dbg : Bool) : ∃ V, insertedPoint dbg S S' (neg a) = .ok V ∧
    V.face = n ∧ V.c ≠ 0 ∧ V.b ≠ 0 := by
  obtain ⟨l1, l2, l3⟩ := h.lefts
  have q := h.shut'.quad h.lt'.1
  have hAB : S'.tri.previousAtVertex (neg a) = n := by
    unfold Tri.previousAtVertex
    have : S'.tri.vertices.fwd n = neg a := by rw [q.ve, h.gn, h.gb']
    rw [← this, h.shut'.flat.coh.hv.left]
  have hva : S'.vec (neg a) = v := by rw [h.shut'.flat.odd a h.lt'.2.2.2, h.va, neg_neg]
  have hAC : S.tri.previousInFace n = g := by
    unfold Tri.previousInFace
    rw [← h.fg, h.shut.flat.coh.hf.left]
  have hb : S.barycentric n v = (cross (S.vec f) (v - S.vec n), cross (S.vec g) v, cross (S.vec n) v) := by
    unfold barycentric
    rw [hAC]
    have e : S.vec g = -(S.vec n + S.vec f) := by rw [eq_neg_iff_add_eq_zero, add_comm]; exact h.closed
    rw [e]
    simp only [cross, neg_x, neg_y, add_x, add_y, sub_x, sub_y, Prod.mk.injEq]
    refine ⟨?_, ?_, ?_⟩ <;> ring
  refine ⟨⟨n, cross (S.vec f) (v - S.vec n), cross (S.vec g) v, cross (S.vec n) v⟩, ?_, rfl, l1.ne', l3.ne'⟩
  unfold FlatTri.insertedPoint
  rw [hAB, hva]
  dsimp only
  rw [hb]
  dsimp only
  rw [if_pos ⟨l2.le, l3.le, l1.le⟩]
  unfold FlatTri.point FlatTri.normalize
  rw [if_neg (by have := h.lt.1; omega), if_neg (by dsimp only; positivity)]
  dsimp only
  have hs : ¬ cross (S.vec f) (v - S.vec n) + cross (S.vec g) v + cross (S.vec n) v < 0 := by
    rw [not_lt]; positivity
  rw [if_neg (by rw [not_or, not_or]; exact ⟨l2.not_gt, l3.not_gt, l1.not_gt⟩), if_neg hs, if_pos ⟨l2, l3, l1⟩]

theorem notOn {V : Point T} (hc : V.c ≠ 0) (hb : V.b ≠ 0) (e : Edge) : S.pointIsOn V e = false := by
  unfold pointIsOn
  rw [vertexOf_none hb]
  unfold edgeOf
  rw [if_pos hc]
  rfl

theorem isIn (h : Subdivided S S' n f g a b c v) {V : Point T} (hV : V.face = n) (hc : V.c ≠ 0) (hb : V.b ≠ 0) {x : HE} :
    S.pointIsIn V x = true ↔ x = n ∨ x = f ∨ x = g := by
  rw [h.shut.pointIsIn]
  simp only [notOn hc hb, Bool.false_eq_true, or_false, hV]
  have inj : ∀ {x y}, S.tri.faces.fwd x = S.tri.faces.fwd y → x = y := fun hxy => h.shut.flat.coh.hf.inj hxy
  constructor
  · rintro ⟨y, (rfl | rfl | rfl), hy⟩
    · exact .inl hy.symm
    · exact .inr (.inr (inj (by rw [← hy, h.fg])))
    · refine .inr (.inl (inj (inj ?_)))
      rw [← hy, h.ff, h.fg]
  · rintro (rfl | rfl | rfl)
    · exact ⟨_, .inl rfl, rfl⟩
    · exact ⟨_, .inr (.inr rfl), by rw [h.ff, h.fg]⟩
    · exact ⟨_, .inr (.inl rfl), h.fg.symm⟩

theorem coordinates_self (p : Point T) : S.coordinates p p.face = .ok (p.a, p.b, p.c) := by
  unfold FlatTri.coordinates FlatTri.pointIsIn sides
  simp [rotated_self]

/-- The image of a point in the subdivided face. -/
theorem insertPoint (h : Subdivided S S' n f g a b c v) (dbg : Bool) (p : Point T) :
    (p.face = n → insertPoint dbg S S' (neg a) p = (insertPointLoop dbg S S' p n [n, f, g]).map fun q => (.codomain, q)) ∧
    (p.face = f → insertPoint dbg S S' (neg a) p = (insertPointLoop dbg S S' p f [f, g, n]).map fun q => (.codomain, q)) ∧
    (p.face = g → insertPoint dbg S S' (neg a) p = (insertPointLoop dbg S S' p g [g, n, f]).map fun q => (.codomain, q)) ∧
    (p.face ≠ n → p.face ≠ f → p.face ≠ g → insertPoint dbg S S' (neg a) p = .ok (.domain, p)) := by
  obtain ⟨V, h1, h2, h3, h4⟩ := h.insertedPoint dbg
  have hi := fun x => h.isIn h2 h3 h4 (x := x)
  have hp : ∀ x y, S.tri.faces.fwd y = x → S.tri.faces.inv x = y := fun x y hy => by
    rw [← hy, h.shut.flat.coh.hf.left]
  unfold FlatTri.insertPoint
  rw [h1]
  simp only [bind, Except.bind, pure, Except.pure]
  refine ⟨fun hf => ?_, fun hf => ?_, fun hf => ?_, fun k1 k2 k3 => ?_⟩
  · rw [hf, (hi n).2 (.inl rfl)]
    unfold Tri.nextInFace Tri.previousInFace
    rw [h.fn, hp n g h.fg]
    rfl
  · rw [hf, (hi f).2 (.inr (.inl rfl))]
    unfold Tri.nextInFace Tri.previousInFace
    rw [h.ff, hp f n h.fn]
    rfl
  · rw [hf, (hi g).2 (.inr (.inr rfl))]
    unfold Tri.nextInFace Tri.previousInFace
    rw [h.fg, hp g f h.ff]
    rfl
  · rw [if_pos]
    rw [Bool.not_eq_true', ← Bool.not_eq_true, hi]
    tauto

/-- Choosing another half edge to the new vertex makes no difference. -/
theorem all (h : Subdivided S S' n f g a b c v) (dbg : Bool) {AV : HE} (hA : AV = neg a ∨ AV = neg b ∨ AV = neg c) (p : Point T) :
    (p.face = n → FlatTri.insertPoint dbg S S' AV p = (insertPointLoop dbg S S' p n [n, f, g]).map fun q => (.codomain, q)) ∧
    (p.face = f → FlatTri.insertPoint dbg S S' AV p = (insertPointLoop dbg S S' p f [f, g, n]).map fun q => (.codomain, q)) ∧
    (p.face = g → FlatTri.insertPoint dbg S S' AV p = (insertPointLoop dbg S S' p g [g, n, f]).map fun q => (.codomain, q)) ∧
    (p.face ≠ n → p.face ≠ f → p.face ≠ g → FlatTri.insertPoint dbg S S' AV p = .ok (.domain, p)) := by
  rcases hA with rfl | rfl | rfl
  · exact h.insertPoint dbg p
  · obtain ⟨k1, k2, k3, k4⟩ := h.rotate.insertPoint dbg p
    exact ⟨k3, k1, k2, fun i1 i2 i3 => k4 i2 i3 i1⟩
  · obtain ⟨k1, k2, k3, k4⟩ := h.rotate.rotate.insertPoint dbg p
    exact ⟨k2, k3, k1, fun i1 i2 i3 => k4 i3 i1 i2⟩

/-- The sides of the face. -/
theorem side_iff (h : Subdivided S S' n f g a b c v) {x : HE} : IsSide S n x ↔ x = n ∨ x = f ∨ x = g := by
  unfold IsSide Tri.nextInFace
  rw [h.fn, h.ff]

theorem side_rotate (h : Subdivided S S' n f g a b c v) {x : HE} : IsSide S f x ↔ IsSide S n x := by
  rw [h.side_iff, h.rotate.side_iff]
  tauto

/-- The sides of the faces into which the face has been subdivided. -/
theorem newSide_iff (h : Subdivided S S' n f g a b c v) {x : HE} : IsNewSide S S' n x ↔
    (x = n ∨ x = neg b ∨ x = a) ∨ (x = f ∨ x = neg c ∨ x = b) ∨ x = g ∨ x = neg a ∨ x = c := by
  unfold IsNewSide
  simp only [h.side_iff]
  unfold IsSide Tri.nextInFace
  constructor
  · rintro ⟨y, (rfl | rfl | rfl), hy⟩
    · rw [h.gn, h.gb'] at hy; exact .inl hy
    · rw [h.gf, h.gc'] at hy; exact .inr (.inl hy)
    · rw [h.gg, h.ga'] at hy; exact .inr (.inr hy)
  · rintro (hy | hy | hy)
    · exact ⟨n, .inl rfl, by rw [h.gn, h.gb']; exact hy⟩
    · exact ⟨f, .inr (.inl rfl), by rw [h.gf, h.gc']; exact hy⟩
    · exact ⟨g, .inr (.inr rfl), by rw [h.gg, h.ga']; exact hy⟩

theorem newSide_rotate (h : Subdivided S S' n f g a b c v) {x : HE} : IsNewSide S S' f x ↔ IsNewSide S S' n x := by
  unfold IsNewSide
  simp only [h.side_rotate]

theorem layout_rotate (h : Subdivided S S' n f g a b c v) {C : HE → Vec T} :
    CommonLayout S S' f C ↔ CommonLayout S S' n C := by
  constructor
  · rintro ⟨h1, h2⟩
    exact ⟨fun x hx => h1 x (h.side_rotate.2 hx), fun x hx => h2 x (h.newSide_rotate.2 hx)⟩
  · rintro ⟨h1, h2⟩
    exact ⟨fun x hx => h1 x (h.side_rotate.1 hx), fun x hx => h2 x (h.newSide_rotate.1 hx)⟩

theorem same_rotate (h : Subdivided S S' n f g a b c v) {p p' : Point T} :
    SameInFace S S' f p p' ↔ SameInFace S S' n p p' := by
  unfold SameInFace
  rw [h.side_rotate, h.newSide_rotate]
  simp only [h.layout_rotate]

/-- Where the corners are. -/
theorem corners (h : Subdivided S S' n f g a b c v) {C : HE → Vec T} (hC : CommonLayout S S' n C) :
    C f = C n + S.vec n ∧ C g = C n + (S.vec n + S.vec f) ∧ C b = C n + v ∧ C (neg c) = C g := by
  have h1 := hC.old n (h.side_iff.2 (.inl rfl))
  have h2 := hC.old f (h.side_iff.2 (.inr (.inl rfl)))
  have h3 := hC.new b (h.newSide_iff.2 (by tauto))
  have h4 := hC.new f (h.newSide_iff.2 (by tauto))
  unfold Tri.nextInFace at h1 h2 h3 h4
  rw [h.fn] at h1
  rw [h.ff, h1] at h2
  rw [h.gb, h.vb, h1] at h3
  rw [h.gf, h.vf, h1] at h4
  refine ⟨h1, by rw [h2, add_assoc], ?_, by rw [h2, h4]⟩
  have : C b = C b + (S.vec n - v) - (S.vec n - v) := by abel
  rw [this, ← h3]
  abel

/-- The corners in the plane, with the first corner at the origin. -/
theorem exists_layout (h : Subdivided S S' n f g a b c v) (hn : [n, f, g, a, neg a, b, neg b, c, neg c].Nodup) :
    ∃ C, CommonLayout S S' n C ∧ C n = 0 := by
  refine ⟨fun x => if x = n ∨ x = neg a then 0 else if x = f ∨ x = neg b then S.vec n else
    if x = g ∨ x = neg c then S.vec n + S.vec f else v, ?_, by simp⟩
  simp only [List.nodup_cons, List.mem_cons, not_or, List.not_mem_nil, not_false_eq_true, and_true] at hn
  obtain ⟨⟨i1, i2, i3, i4, i5, i6, i7, i8⟩, ⟨j2, j3, j4, j5, j6, j7, j8⟩, ⟨k3, k4, k5, k6, k7, k8⟩, ⟨l4, l5, l6, l7, l8⟩,
    ⟨m5, m6, m7, m8⟩, ⟨n6, n7, n8⟩, ⟨o7, o8⟩, o9, -⟩ := hn
  have hc : S.vec n + S.vec f + S.vec g = 0 := h.closed
  have od : ∀ x, x < S'.tri.size → S'.vec (neg x) = - S'.vec x := fun x hx => h.shut'.flat.odd x hx
  have oa := od a h.lt'.2.2.2
  have ob := od b h.lt'.2.1
  have oc := od c h.lt'.2.2.1
  rw [h.va] at oa
  rw [h.vb] at ob
  rw [h.vc] at oc
  constructor
  · intro x hx
    rw [h.side_iff] at hx
    unfold Tri.nextInFace
    rcases hx with rfl | rfl | rfl
    · rw [h.fn]
      simp [Ne.symm, *]
    · rw [h.ff]
      simp [Ne.symm, *]
    · rw [h.fg]
      simp [Ne.symm, *]
  · intro x hx
    rw [h.newSide_iff] at hx
    unfold Tri.nextInFace
    rcases hx with (rfl | rfl | rfl) | (rfl | rfl | rfl) | (rfl | rfl | rfl)
    · rw [h.gn, h.vn]; simp [Ne.symm, *]
    · rw [h.gb', ob]; simp [Ne.symm, *]
    · rw [h.ga, h.va]; simp [Ne.symm, *]
    · rw [h.gf, h.vf]; simp [Ne.symm, *]
    · rw [h.gc', oc]; simp [Ne.symm, *]
    · rw [h.gb, h.vb]; simp [Ne.symm, *]
    · rw [h.gg, h.vg]; simp [Ne.symm, *]
    · rw [h.ga', oa]; simp [Ne.symm, *]
    · rw [h.gc, h.vc]; simp [Ne.symm, *]

/-- The sum of the coordinates that are computed. -/
theorem coordinates_sum (h : Subdivided S S' n f g a b c v) (ap bp cp : T) :
    ap * cross (S.vec n) (S.vec n + S.vec f) + (ap * -cross v (S.vec n + S.vec f) + bp * cross (S.vec f) (v - S.vec n)) +
      (ap * -cross (S.vec n) v + cp * cross (S.vec f) (v - S.vec n)) = cross (S.vec f) (v - S.vec n) * (ap + bp + cp) := by
  simp only [sub_x, sub_y, add_x, add_y, cross]
  ring

theorem cross_pos (h : Subdivided S S' n f g a b c v) : 0 < cross (S.vec n) (S.vec n + S.vec f) ∧
    0 < cross v (S.vec n + S.vec f) := by
  obtain ⟨l1, l2, l3⟩ := h.lefts
  have e : S.vec g = -(S.vec n + S.vec f) := by rw [eq_neg_iff_add_eq_zero, add_comm]; exact h.closed
  rw [e] at l3
  simp only [cross, neg_x, neg_y, add_x, add_y, sub_x, sub_y] at l1 l2 l3 ⊢
  constructor <;> linarith

/-- The coordinates that are computed in the first iteration describe the same position. -/
theorem first_same (h : Subdivided S S' n f g a b c v) {p : Point T} (hp : p.face = n) :
    SameInFace S S' n p ⟨b, p.a * cross (S.vec n) (S.vec n + S.vec f),
      p.a * -cross v (S.vec n + S.vec f) + p.b * cross (S.vec f) (v - S.vec n),
      p.a * -cross (S.vec n) v + p.c * cross (S.vec f) (v - S.vec n)⟩ := by
  obtain ⟨pf, pa, pb, pc⟩ := p
  dsimp only at hp ⊢
  subst hp
  refine ⟨h.side_iff.2 (.inl rfl), h.newSide_iff.2 (by tauto), fun C hC => ?_⟩
  obtain ⟨c1, c2, c3, c4⟩ := h.corners hC
  rw [h.coordinates_sum]
  unfold place Tri.nextInFace
  dsimp only
  rw [h.fn, h.ff, h.gb, h.gf, c4, c3, c2, c1]
  ext
  · simp only [smul_x, add_x, add_y, sub_x, sub_y, cross, smul_eq_mul]
    ring
  · simp only [smul_y, add_x, add_y, sub_x, sub_y, cross, smul_eq_mul]
    ring

/-- If the point is in the face of the opposite side, then the coordinates in the first iteration are not negative. -/
theorem first_nonneg (h : Subdivided S S' n f g a b c v) {C : HE → Vec T} (hC : CommonLayout S S' n C) {p d : Point T}
    (hp : p.face = n) (hp' : Describes S p) (hd : d.face = b) (hd' : Describes S' d) (hs : SameInFace S S' n p d) :
    0 ≤ p.a * cross (S.vec n) (S.vec n + S.vec f) ∧
      0 ≤ p.a * -cross v (S.vec n + S.vec f) + p.b * cross (S.vec f) (v - S.vec n) ∧
      0 ≤ p.a * -cross (S.vec n) v + p.c * cross (S.vec f) (v - S.vec n) := by
  obtain ⟨x1, x2⟩ := h.cross_pos
  obtain ⟨l1, l2, l3⟩ := h.lefts
  obtain ⟨-, -, he⟩ := hs
  replace he := he C hC
  obtain ⟨pf, pa, pb, pc⟩ := p
  obtain ⟨df, da, db, dc⟩ := d
  obtain ⟨-, ⟨p1, p2, p3⟩, p4⟩ := hp'
  obtain ⟨-, ⟨d1, d2, d3⟩, d4⟩ := hd'
  dsimp only at hp hd p1 p2 p3 p4 d1 d2 d3 d4 he ⊢
  subst hp hd
  obtain ⟨c1, c2, c3, c4⟩ := h.corners hC
  unfold place Tri.nextInFace at he
  dsimp only at he
  rw [h.fn, h.ff, h.gb, h.gf, c4, c3, c2, c1] at he
  have ex := congrArg Vec.x he
  have ey := congrArg Vec.y he
  simp only [smul_x, smul_y, add_x, add_y, smul_eq_mul] at ex ey
  refine ⟨mul_nonneg p1 x1.le, ?_, ?_⟩
  · have key : (da + db + dc) * cross (S.vec pf) (S.vec pf + S.vec f) *
        (pa * -cross v (S.vec pf + S.vec f) + pb * cross (S.vec f) (v - S.vec pf)) =
        (pa + pb + pc) * cross (S.vec pf) (S.vec pf + S.vec f) * (db * cross (S.vec f) (v - S.vec pf)) := by
      simp only [cross, add_x, add_y, sub_x, sub_y]
      linear_combination ((S.vec f).x * (v.y - (S.vec pf).y) - (S.vec f).y * (v.x - (S.vec pf).x) +
          (v.x * ((S.vec pf).y + (S.vec f).y) - v.y * ((S.vec pf).x + (S.vec f).x))) *
          (ex * ((S.vec pf).y + (S.vec f).y) - ey * ((S.vec pf).x + (S.vec f).x)) +
        (v.x * ((S.vec pf).y + (S.vec f).y) - v.y * ((S.vec pf).x + (S.vec f).x)) *
          ((S.vec pf).x * ey - (S.vec pf).y * ex)
    have := mul_nonneg (mul_pos p4 x1).le (mul_nonneg d2 l2.le)
    rw [← key] at this
    exact nonneg_of_mul_nonneg_right this (mul_pos d4 x1)
  · have key : (da + db + dc) * cross (S.vec pf) (S.vec pf + S.vec f) *
        (pa * -cross (S.vec pf) v + pc * cross (S.vec f) (v - S.vec pf)) =
        (pa + pb + pc) * cross (S.vec pf) (S.vec pf + S.vec f) * (dc * cross (S.vec f) (v - S.vec pf)) := by
      simp only [cross, add_x, add_y, sub_x, sub_y]
      linear_combination ((S.vec f).x * (v.y - (S.vec pf).y) - (S.vec f).y * (v.x - (S.vec pf).x) +
          ((S.vec pf).x * v.y - (S.vec pf).y * v.x)) * ((S.vec pf).x * ey - (S.vec pf).y * ex) +
        ((S.vec pf).x * v.y - (S.vec pf).y * v.x) *
          (ex * ((S.vec pf).y + (S.vec f).y) - ey * ((S.vec pf).x + (S.vec f).x))
    have := mul_nonneg (mul_pos p4 x1).le (mul_nonneg d3 l2.le)
    rw [← key] at this
    exact nonneg_of_mul_nonneg_right this (mul_pos d4 x1)

end Subdivided

end Verif.FlatTri
