import Verif.Lemmas.InsertPoint
import Verif.Props.C30
import Verif.Props.C86

/-!
# C35: inserting a vertex in a face and points

The property: when a vertex has been inserted in a face, then the deformation maps each point to the point at the same
position. This is not true. It holds for points that are in the new face which is opposite to the source of the half edge
that is used to describe the point (`first_correct_partial`).
-/

namespace Verif.C35

open Verif Spec Tri FlatTri Examples Subdivided Vec

variable {T : Type} [CommRing T] [LinearOrder T] [IsStrictOrderedRing T]

/-- The property: the image of each point is a point of the codomain at the same position. -/
def PointsKept (dbg : Bool) (S S' : FlatTri T) (n AV : HE) : Prop :=
  ∀ d p, C30.Created dbg S d p → ∃ d' p', S.insertPoint dbg S' AV p = .ok (.codomain, p') ∧ C30.Created dbg S' d' p' ∧
    SameAfterInsertion S S' n d d'

/-- The corners can be laid out in the plane. -/
theorem layout_exists {dbg : Bool} {S S' : FlatTri T} (h : Closed dbg S) (h' : Closed dbg S') {n f g a b c : HE} {v : Vec T}
    (hs : SubdividesFace S S' n f g a b c v) : ∃ C, CommonLayout S S' n C ∧ C n = 0 := by
  have hd := hs.subdivided h h'
  refine hd.exists_layout ?_
  have hE := hs.halfEdges
  have hn : (S.tri.halfEdges ++ [a, neg a, b, neg b, c, neg c]).Nodup := by
    rw [← hE]
    exact List.nodup_range
  rw [List.nodup_append] at hn
  obtain ⟨-, h2, h3⟩ := hn
  have h4 : [n, f, g].Nodup := by
    have q := h.shut.quad hd.lt.1
    have := q.nodup
    rw [hd.fn, hd.ff] at this
    simp only [List.nodup_cons, List.mem_cons, not_or, List.not_mem_nil, not_false_eq_true, and_true] at this ⊢
    tauto
  have : [n, f, g, a, neg a, b, neg b, c, neg c] = [n, f, g] ++ [a, neg a, b, neg b, c, neg c] := rfl
  rw [this, List.nodup_append]
  refine ⟨h4, h2, fun x hx y hy => h3 x ?_ y hy⟩
  rw [mem_halfEdges]
  simp only [List.mem_cons, List.not_mem_nil, or_false] at hx
  rcases hx with rfl | rfl | rfl
  exacts [hd.lt.1, hd.lt.2.1, hd.lt.2.2]

theorem loop_first {S S' : FlatTri T} {n f g a b c : HE} {v : Vec T} (h : Subdivided S S' n f g a b c v) (dbg : Bool)
    {C : HE → Vec T} (hC : CommonLayout S S' n C) (h' : Closed dbg S') {p d : Point T} (hp : p.face = n)
    (hp' : Describes S p) (hd : d.face = b) (hd' : Describes S' d) (hs : SameInFace S S' n p d) (rest : List HE) :
    ∃ d' p', insertPointLoop dbg S S' p n (n :: rest) = .ok p' ∧ C30.Created dbg S' d' p' ∧ SameInFace S S' n p d' := by
  obtain ⟨i1, i2, i3⟩ := h.first_nonneg hC hp hp' hd hd' hs
  have hD : Describes S' ⟨b, p.a * cross (S.vec n) (S.vec n + S.vec f),
      p.a * -cross v (S.vec n + S.vec f) + p.b * cross (S.vec f) (v - S.vec n),
      p.a * -cross (S.vec n) v + p.c * cross (S.vec f) (v - S.vec n)⟩ := by
    refine ⟨h.lt'.2.1, ⟨i1, i2, i3⟩, ?_⟩
    dsimp only
    rw [h.coordinates_sum]
    exact mul_pos h.lefts.2.1 hp'.pos
  obtain ⟨q, hq, -⟩ := C30.point_accepts h' hD
  refine ⟨_, q, ?_, hq, h.first_same hp⟩
  have hc := coordinates_self (S := S) p
  rw [hp] at hc
  unfold insertPointLoop
  rw [hc]
  simp only [bind, Except.bind]
  rw [h.coordinates_eq]
  dsimp only
  rw [if_pos ⟨i1, i2, i3⟩]
  unfold Tri.nextInFace
  rw [h.gn, neg_neg']
  exact hq.2

/-- A point in the subdivided face is mapped correctly if it is in the new face that is opposite to the source of the half
edge `p.face` (which is the half edge `face()` returns for the point). -/
theorem first_correct_partial {dbg : Bool} {S S' : FlatTri T} (h : Closed dbg S) (h' : Closed dbg S') {n f g a b c : HE}
    {v : Vec T} (hs : SubdividesFace S S' n f g a b c v) {AV : HE} (hA : AV = neg a ∨ AV = neg b ∨ AV = neg c)
    {d p e : Point T} (hp : C30.Created dbg S d p) (he : Describes S' e)
    (hf : e.face = neg (S'.tri.nextInFace p.face)) (hpe : SameInFace S S' n p e) :
    ∃ d' p', S.insertPoint dbg S' AV p = .ok (.codomain, p') ∧ C30.Created dbg S' d' p' ∧ SameAfterInsertion S S' n d d' := by
  obtain ⟨C, hC, -⟩ := layout_exists h h' hs
  have k := hs.subdivided h h'
  obtain ⟨n1, s1⟩ := hp.normal h
  have fin : ∀ d', SameInFace S S' n p d' → SameAfterInsertion S S' n d d' := fun d' hd' =>
    ⟨p, d', s1, .inr hd', .refl _⟩
  unfold Tri.nextInFace at hf
  obtain ⟨g1, g2, g3, -⟩ := k.all dbg hA p
  rcases k.side_iff.1 hpe.1 with hi | hi | hi
  · rw [hi, k.gn, neg_neg'] at hf
    obtain ⟨d', p', j1, j2, j3⟩ := loop_first k dbg hC h' hi n1.toDescribes hf he hpe [f, g]
    exact ⟨d', p', by rw [g1 hi, j1]; rfl, j2, fin d' j3⟩
  · have k1 := k.rotate
    rw [hi, k.gf, neg_neg'] at hf
    obtain ⟨d', p', j1, j2, j3⟩ := loop_first k1 dbg (k.layout_rotate.2 hC) h' hi n1.toDescribes hf he
      (k.same_rotate.2 hpe) [g, n]
    exact ⟨d', p', by rw [g2 hi, j1]; rfl, j2, fin d' (k.same_rotate.1 j3)⟩
  · have k1 := k.rotate
    have k2 := k1.rotate
    rw [hi, k.gg, neg_neg'] at hf
    obtain ⟨d', p', j1, j2, j3⟩ := loop_first k2 dbg (k1.layout_rotate.2 (k.layout_rotate.2 hC)) h' hi n1.toDescribes hf he
      (k1.same_rotate.2 (k.same_rotate.2 hpe)) [n, f]
    exact ⟨d', p', by rw [g3 hi, j1]; rfl, j2, fin d' (k.same_rotate.1 (k1.same_rotate.1 j3))⟩

/-- A point that is not described with respect to the subdivided face is returned as it is; it is still a point of the domain. Its
coordinates are valid in the codomain. -/
theorem elsewhere {dbg : Bool} {S S' : FlatTri T} (h : Closed dbg S) (h' : Closed dbg S') {n f g a b c : HE}
    {v : Vec T} (hs : SubdividesFace S S' n f g a b c v) {AV : HE} (hA : AV = neg a ∨ AV = neg b ∨ AV = neg c)
    {d p : Point T} (hp : C30.Created dbg S d p) (hf : ¬ IsSide S n p.face) :
    S.insertPoint dbg S' AV p = .ok (.domain, p) ∧ Describes S' p ∧ SameAfterInsertion S S' n d p := by
  have k := hs.subdivided h h'
  obtain ⟨n1, s1⟩ := hp.normal h
  refine ⟨?_, ?_, ⟨p, p, s1, .inl ⟨hf, rfl⟩, .refl _⟩⟩
  · rw [k.side_iff, not_or, not_or] at hf
    exact (k.all dbg hA p).2.2.2 hf.1 hf.2.1 hf.2.2
  · refine ⟨?_, n1.nonneg, n1.pos⟩
    rw [← mem_halfEdges, hs.halfEdges, List.mem_append, mem_halfEdges]
    exact .inl n1.lt

theorem loop_boundary {S S' : FlatTri T} {n f g a b c : HE} {v : Vec T} (h : Subdivided S S' n f g a b c v) (dbg : Bool)
    {p : Point T} {x : HE} (hx : p.face = x) (ha : 0 < p.a) (hc : p.c = 0) :
    insertPointLoop dbg S S' p x [n, f, g] = .error (if dbg then .logicError else .undefined) := by
  have hco := coordinates_self (S := S) p
  rw [hx] at hco
  have step : ∀ {n f g a b c : HE} {v : Vec T}, Subdivided S S' n f g a b c v → ∀ rest,
      insertPointLoop dbg S S' p x (n :: rest) = insertPointLoop dbg S S' p x rest := by
    intro n f g a b c v h rest
    conv_lhs => unfold insertPointLoop
    rw [hco]
    simp only [bind, Except.bind]
    rw [h.coordinates_eq]
    dsimp only
    rw [if_neg]
    rintro ⟨-, -, h3⟩
    rw [hc, zero_mul, add_zero] at h3
    have := mul_pos ha h.left
    linarith
  rw [step h, step h.rotate, step h.rotate.rotate]
  rfl

/-- Points on the boundary of the subdivided face (with respect to which they are described) lead to an error. -/
theorem boundary_fails {dbg : Bool} {S S' : FlatTri T} (h : Closed dbg S) (h' : Closed dbg S') {n f g a b c : HE}
    {v : Vec T} (hs : SubdividesFace S S' n f g a b c v) {AV : HE} (hA : AV = neg a ∨ AV = neg b ∨ AV = neg c)
    {d p : Point T} (hp : C30.Created dbg S d p) (hf : IsSide S n p.face) (hc : p.c = 0) :
    S.insertPoint dbg S' AV p = .error (if dbg then .logicError else .undefined) := by
  have k := hs.subdivided h h'
  obtain ⟨n1, s1⟩ := hp.normal h
  have ha : 0 < p.a := by
    rcases n1.normal with h1 | h1
    exacts [h1.1, h1.2]
  obtain ⟨g1, g2, g3, -⟩ := k.all dbg hA p
  rcases k.side_iff.1 hf with hi | hi | hi
  · rw [g1 hi, loop_boundary k dbg hi ha hc]; rfl
  · rw [g2 hi, loop_boundary k.rotate dbg hi ha hc]; rfl
  · rw [g3 hi, loop_boundary k.rotate.rotate dbg hi ha hc]; rfl

/-- The property fails for each vertex that is inserted: the corners of the subdivided face cannot be mapped. -/
theorem not_pointsKept {dbg : Bool} {S S' : FlatTri T} (h : Closed dbg S) (h' : Closed dbg S') {n f g a b c : HE}
    {v : Vec T} (hs : SubdividesFace S S' n f g a b c v) {AV : HE} (hA : AV = neg a ∨ AV = neg b ∨ AV = neg c) :
    ¬ PointsKept dbg S S' n AV := by
  intro hk
  have k := hs.subdivided h h'
  have hp : C30.Created dbg S ⟨n, 1, 0, 0⟩ ⟨n, 1, 0, 0⟩ := by
    refine ⟨⟨k.lt.1, ⟨zero_le_one, le_rfl, le_rfl⟩, by simp⟩, ?_⟩
    unfold FlatTri.point FlatTri.normalize FlatTri.normalizeLoop
    have h1 : ¬ (1 : T) < 0 := not_lt.2 zero_le_one
    simp [h1, not_le.2 k.lt.1]
  obtain ⟨d', p', j, -⟩ := hk _ _ hp
  rw [boundary_fails h h' hs hA hp (.inl rfl) rfl] at j
  cases j

/-! ### Concrete cases -/

theorem wideTorus_closed : Closed true wideTorus := ⟨torus_reachable true, wideTorus_isFlat, by decide⟩

/-- The torus with sides of length 4 after a vertex has been inserted at `(3, 2)` in the lower triangle. -/
def wideInserted : FlatTri ℤ :=
  match wideTorus.insertInFace (none : Option (Approx ℤ ℚ)) true 0 ⟨3, 2⟩ with
  | .ok S' => S'
  | .error _ => wideTorus

theorem wideTorus_subdivided : wideTorus.insertInFace (none : Option (Approx ℤ ℚ)) true 0 ⟨3, 2⟩ = .ok wideInserted ∧
    Closed true wideInserted ∧ SubdividesFace wideTorus wideInserted 0 2 5 6 8 10 ⟨3, 2⟩ := by
  obtain ⟨S', f, g, a, b, c, h1, h2, -, h4⟩ := C86.face_correct (none : Option (Approx ℤ ℚ)) wideTorus_closed
    (n := 0) (v := ⟨3, 2⟩) (by decide) ⟨by decide, by decide, by decide⟩
  have hS : wideInserted = S' := by unfold wideInserted; rw [h1]
  rw [hS]
  refine ⟨h1, h2, ?_⟩
  have hf : f = 2 := h4.face.2.2.1.symm
  have hg : g = 5 := by
    have := h4.face.2.2.2.1
    rw [hf] at this
    exact this.symm
  have hE := h4.halfEdges
  have hl := congrArg List.length hE
  have h12 : S'.tri.size = 12 := by
    have e : wideTorus.tri.size = 6 := rfl
    simpa [halfEdges, e] using hl
  have hE' : S'.tri.halfEdges = List.range 12 := by unfold halfEdges; rw [h12]
  have h6 : wideTorus.tri.halfEdges = [0, 1, 2, 3, 4, 5] := by decide
  rw [hE', h6] at hE
  have h7 : List.range 12 = [0, 1, 2, 3, 4, 5, 6, 7, 8, 9, 10, 11] := by decide
  rw [h7] at hE
  simp only [List.cons_append, List.nil_append, List.cons.injEq, true_and] at hE
  obtain ⟨rfl, -, rfl, -, rfl, -⟩ := hE
  subst hf hg
  exact h4

/-- The point with weights `(1, 2, 5)` is mapped correctly by `first_correct_partial`. -/
example : C30.Created true wideTorus ⟨0, 1, 2, 5⟩ ⟨0, 1, 2, 5⟩ ∧
    (wideTorus.insertPoint true wideInserted 7 ⟨0, 1, 2, 5⟩).toOption.map
      (fun r => (r.1, r.2.face, r.2.a, r.2.b, r.2.c)) = some (.codomain, 8, 16, 4, 12) :=
  ⟨⟨⟨by decide, by decide, by decide⟩, rfl⟩, by decide +kernel⟩

example : Describes wideInserted ⟨8, 16, 4, 12⟩ ∧ (8 : HE) = neg (wideInserted.tri.nextInFace 0) ∧
    SameInFace wideTorus wideInserted 0 ⟨0, 1, 2, 5⟩ ⟨8, 16, 4, 12⟩ := by
  have k := wideTorus_subdivided.2.2.subdivided wideTorus_closed wideTorus_subdivided.2.1
  refine ⟨⟨k.lt'.2.1, by decide, by decide⟩, ?_, ?_⟩
  · unfold Tri.nextInFace
    rw [k.gn]
    rfl
  · exact k.first_same (p := ⟨0, 1, 2, 5⟩) rfl

/-- The point with weights `(1, 2, 1)` is at `(3, 1)`. Its image is the vertex that has been inserted at `(3, 2)`. -/
theorem wrong_point : C30.Created true wideTorus ⟨0, 1, 2, 1⟩ ⟨0, 1, 2, 1⟩ ∧
    (wideTorus.insertPoint true wideInserted 7 ⟨0, 1, 2, 1⟩).toOption.map
      (fun r => (r.1, r.2.face, r.2.a, r.2.b, r.2.c)) = some (.codomain, 10, 16, 0, 0) ∧
    ¬ SameInFace wideTorus wideInserted 0 ⟨0, 1, 2, 1⟩ ⟨10, 16, 0, 0⟩ := by
  refine ⟨⟨⟨by decide, by decide, by decide⟩, rfl⟩, by decide +kernel, ?_⟩
  rintro ⟨-, -, hs⟩
  have hsub := wideTorus_subdivided
  have k := hsub.2.2.subdivided wideTorus_closed hsub.2.1
  obtain ⟨C, hC, h0⟩ := layout_exists wideTorus_closed hsub.2.1 hsub.2.2
  have hs := hs C hC
  obtain ⟨c1, c2, -, -⟩ := k.corners hC
  have c3 := hC.new 10 (k.newSide_iff.2 (by tauto))
  have e1 : wideInserted.tri.nextInFace 10 = 5 := k.gc
  rw [e1, k.vc, c2, h0] at c3
  have c4 : C 10 = ⟨3, 2⟩ := by
    have : C 10 = C 10 + (wideTorus.vec 0 + wideTorus.vec 2 - ⟨3, 2⟩) - (wideTorus.vec 0 + wideTorus.vec 2 - ⟨3, 2⟩) := by
      abel
    rw [this, ← c3]
    rfl
  have e2 : wideTorus.tri.nextInFace 0 = 2 := rfl
  have e3 : wideTorus.tri.nextInFace 2 = 5 := rfl
  have hy := congrArg Vec.y hs
  simp only [place, e2, e3, c1, c2, h0, c4] at hy
  revert hy
  simp
  decide

end Verif.C35
