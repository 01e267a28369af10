import Verif.Spec.FlatTriangulation
import Verif.Lemmas.TriOps
import Verif.Lemmas.Vector
import Mathlib.Algebra.BigOperators.Group.Finset.Basic
import Mathlib.Algebra.BigOperators.Ring.Finset
import Mathlib.Tactic.LinearCombination
import Mathlib.Tactic.Linarith

set_option linter.unusedSectionVars false

/-!
# Flat triangulations: construction, flips and area
-/

namespace Verif.FlatTri

open Verif Spec Tri Vec

variable {T : Type} [CommRing T] [LinearOrder T] [IsStrictOrderedRing T]
variable {K : Type*} [Field K] [LinearOrder K] [IsStrictOrderedRing K]

/-- The invariants of flat triangulations. -/
structure Flat (S : FlatTri T) : Prop where
  coh : S.tri.Coherent
  ver : S.tri.VertexesOk
  odd : ∀ e < S.tri.size, S.vec (neg e) = -S.vec e
  closed : ∀ e, S.tri.faces.fwd e ≠ e → S.vec e + S.vec (S.tri.faces.fwd e) + S.vec (S.tri.faces.fwd (S.tri.faces.fwd e)) = 0
  oriented : ∀ e, S.tri.faces.fwd e ≠ e → 0 < cross (S.vec e) (S.vec (S.tri.faces.fwd e))

theorem IsFlat.flat {dbg : Bool} {S : FlatTri T} (h : S.tri.Reachable dbg) (hf : IsFlat S) : S.Flat where
  coh := h.inv.1
  ver := h.inv.2
  odd e he := hf.odd e (mem_halfEdges.2 he)
  closed e he := hf.closed e (mem_halfEdges.2 (h.inv.1.lt_of_not_boundary he)) (boundary_false.2 he)
  oriented e he := hf.oriented e (mem_halfEdges.2 (h.inv.1.lt_of_not_boundary he)) (boundary_false.2 he)

theorem Flat.isFlat {S : FlatTri T} (h : S.Flat) : IsFlat S where
  triangulation := h.coh.isTriangulation
  odd e he := h.odd e (mem_halfEdges.1 he)
  closed e _ hb := h.closed e (boundary_false.1 hb)
  oriented e _ hb := h.oriented e (boundary_false.1 hb)

/-! ### Construction -/

theorem check_ok (A : Option (Approx T K)) {S : FlatTri T} (hc : S.tri.Coherent) :
    check A S = .ok () ↔ (∀ e, S.tri.faces.fwd e ≠ e → S.vec e ≠ 0 ∧
      S.vec e + S.vec (S.tri.faces.fwd e) + S.vec (S.tri.faces.fwd (S.tri.faces.fwd e)) = 0) ∧
      ∀ e, S.tri.faces.fwd e ≠ e → 0 < cross (S.vec e) (S.vec (S.tri.faces.fwd e)) := by
  have h1 : S.tri.halfEdges.all S.closedAt = true ↔ ∀ e, S.tri.faces.fwd e ≠ e → S.vec e ≠ 0 ∧
      S.vec e + S.vec (S.tri.faces.fwd e) + S.vec (S.tri.faces.fwd (S.tri.faces.fwd e)) = 0 := by
    rw [List.all_eq_true]
    constructor
    · intro h e he
      have := h e (mem_halfEdges.2 (hc.lt_of_not_boundary he))
      unfold closedAt at this
      rw [boundary_false.2 he, Bool.false_or, Bool.and_eq_true, nonzero_iff, Bool.not_eq_true', ← Bool.not_eq_true,
        nonzero_iff, not_not] at this
      exact this
    · intro h e _
      unfold closedAt
      by_cases he : S.tri.faces.fwd e = e
      · rw [boundary_true.2 he]; rfl
      · rw [boundary_false.2 he, Bool.false_or, Bool.and_eq_true, nonzero_iff, Bool.not_eq_true', ← Bool.not_eq_true,
          nonzero_iff, not_not]
        exact h e he
  have h2 : S.tri.halfEdges.all (S.orientedAt A) = true ↔ ∀ e, S.tri.faces.fwd e ≠ e →
      0 < cross (S.vec e) (S.vec (S.tri.faces.fwd e)) := by
    rw [List.all_eq_true]
    constructor
    · intro h e he
      have := h e (mem_halfEdges.2 (hc.lt_of_not_boundary he))
      unfold orientedAt at this
      rw [boundary_false.2 he, Bool.false_or, Bool.and_eq_true, decide_eq_true_eq, decide_eq_true_eq, ccw_eq,
        ccwExact_ccw] at this
      exact this.2
    · intro h e _
      unfold orientedAt
      by_cases he : S.tri.faces.fwd e = e
      · rw [boundary_true.2 he]; rfl
      · rw [boundary_false.2 he, Bool.false_or, Bool.and_eq_true, decide_eq_true_eq, decide_eq_true_eq, ccw_eq]
        have := ccwExact_ccw.2 (h e he)
        exact ⟨by change ccwExact (S.vec e) (S.vec (S.tri.faces.fwd e)) ≠ _; rw [this]; decide, this⟩
  unfold check
  rw [← h1, ← h2]
  cases S.tri.halfEdges.all S.closedAt <;> cases S.tri.halfEdges.all (S.orientedAt A) <;> simp

theorem check_cases (A : Option (Approx T K)) (S : FlatTri T) :
    check A S = .ok () ∨ check A S = .error .invalidArgument := by
  unfold check
  split_ifs <;> simp

theorem check_transfer (A : Option (Approx T K)) {C T' : Tri} (hC : C.Coherent) (hT : T'.Coherent) (hf : T'.faces = C.faces)
    (f : HE → Vec T) : check A ⟨T', f⟩ = .ok () ↔ check A ⟨C, f⟩ = .ok () := by
  rw [check_ok A (S := ⟨T', f⟩) hT, check_ok A (S := ⟨C, f⟩) hC]
  simp only [hf]

theorem isFlat_of_check (A : Option (Approx T K)) {dbg : Bool} {C : Tri} (h : C.Reachable dbg) {f : HE → Vec T}
    (hodd : ∀ e ∈ C.halfEdges, f (neg e) = -f e) : check A ⟨C, f⟩ = .ok () ↔ IsFlat ⟨C, f⟩ := by
  rw [check_ok A (S := ⟨C, f⟩) h.inv.1]
  constructor
  · rintro ⟨h1, h2⟩
    exact Flat.isFlat ⟨h.inv.1, h.inv.2, fun e he => hodd e (mem_halfEdges.2 he), fun e he => (h1 e he).2, h2⟩
  · intro hF
    have hF := IsFlat.flat (S := ⟨C, f⟩) h hF
    refine ⟨fun e he => ⟨fun h0 => ?_, hF.closed e he⟩, hF.oriented⟩
    have := hF.oriented e he
    simp only at this h0
    rw [h0, Vec.cross_zero_left] at this
    exact lt_irrefl _ this

/-! ### The constructors -/

theorem remake {C : Tri} (h : C.Coherent) (dbg : Bool) :
    ∃ T', Tri.make dbg C.vertices (C.halfEdges.filter C.boundary) = .ok T' ∧ T'.vertices = C.vertices ∧
      T'.faces = C.faces ∧ T'.Reachable dbg := by
  have hB : ∀ x, x ∈ C.halfEdges.filter C.boundary ↔ x < C.size ∧ C.faces.fwd x = x := by
    intro x; rw [List.mem_filter, mem_halfEdges, boundary_true]
  obtain ⟨T', h1, h2, h3⟩ := make_of_faces dbg h.hv h.even (B := C.halfEdges.filter C.boundary) C.faces.fwd
    (fun x hx => by
      rw [hB, hB, h.boundary_iff]
      have := h.neg_lt (C.vertices.fwd x)
      simp only [this, h.hv.fwd_lt, hx, true_and])
    (fun x hx hxB => ((hB x).1 hxB).2)
    (fun x hx hxB => by
      rw [hB] at hxB
      have hb : C.faces.fwd x ≠ x := fun hc => hxB ⟨hx, hc⟩
      exact ⟨h.link x hb, h.tri x, hb⟩)
  have hr := ofMake h.hv h1
  refine ⟨T', h1, h2, hr.inv.1.hf.ext h.hf ?_ ?_, hr⟩
  · rw [hr.inv.1.hs, h.hs, h2]
  · intro x hx
    rw [hr.inv.1.hs, h2] at hx
    exact h3 x hx

/-- The vectors given as a list. -/
def listed (vectors : List (Vec T)) (he : HE) : Vec T :=
  if he % 2 = 0 then vectors.getD (he / 2) 0 else -vectors.getD (he / 2) 0

theorem listed_neg (vectors : List (Vec T)) (e : HE) : listed vectors (neg e) = -listed vectors e := by
  unfold listed
  have h := neg_def e
  by_cases he : e % 2 = 0
  · rw [if_pos he] at h
    rw [h, if_neg (by omega), if_pos he, show (e + 1) / 2 = e / 2 by omega]
  · rw [if_neg he] at h
    rw [h, if_pos (by omega), if_neg he, show (e - 1) / 2 = e / 2 by omega, neg_neg]

theorem construct {C : Tri} (h : C.Coherent) (A : Option (Approx T K)) (dbg : Bool) :
    ∃ T' : Tri, T'.vertices = C.vertices ∧ T'.faces = C.faces ∧ T'.Reachable dbg ∧
      (∀ f, ofFunction A dbg C f = (check A ⟨T', f⟩).map fun _ => ⟨T', f⟩) ∧
      ∀ vs, ofVectors A dbg C vs = if vs.length < C.edges.length then .error .logicError else
        (check A ⟨T', listed vs⟩).bind fun _ => if vs.length ≠ C.edges.length then .error .invalidArgument
          else .ok ⟨T', listed vs⟩ := by
  obtain ⟨T', h1, h2, h3, h4⟩ := remake h dbg
  have he : T'.edges = C.edges := by unfold Tri.edges Tri.size; rw [h2]
  refine ⟨T', h2, h3, h4, fun f => ?_, fun vs => ?_⟩
  · unfold ofFunction
    rw [h1]
    simp only [bind, Except.bind]
    cases check A ⟨T', f⟩ <;> rfl
  · unfold ofVectors
    rw [h1]
    simp only [bind, Except.bind, he]
    rw [show (fun he : HE => if he % 2 = 0 then vs.getD (he / 2) 0 else -vs.getD (he / 2) 0) = listed vs from rfl]
    by_cases h5 : vs.length < C.edges.length
    · rw [if_pos h5, if_pos h5]; rfl
    rw [if_neg h5, if_neg h5]
    cases check A ⟨T', listed vs⟩ with
    | error e => rfl
    | ok u =>
      by_cases h6 : vs.length ≠ C.edges.length
      · simp only [if_pos h6]; rfl
      · simp only [if_neg h6]; rfl

/-! ### Faces -/

theorem Flat.fwd_ne {S : FlatTri T} (h : S.Flat) {e : HE} (he : S.tri.faces.fwd e ≠ e) :
    S.tri.faces.fwd (S.tri.faces.fwd e) ≠ S.tri.faces.fwd e := fun hx => he (h.coh.fwd_fixed.1 hx)

theorem Flat.flippable {S : FlatTri T} (h : S.Flat) {e : HE} (he : S.tri.faces.fwd e ≠ e)
    (he' : S.tri.faces.fwd (neg e) ≠ neg e) : S.tri.Flippable e := by
  have hlt := h.coh.lt_of_not_boundary he
  refine ⟨he, he', fun hx => ?_, fun hx => ?_⟩
  · have := h.oriented e he
    rw [hx, h.odd e hlt, cross_neg_right, cross_self] at this
    simp at this
  · have h1 := h.oriented _ (h.fwd_ne (h.fwd_ne he))
    rw [h.coh.tri, hx, h.odd e hlt, cross_neg_left, cross_self] at h1
    simp at h1

/-- The vectors of the quadrilateral around an edge. -/
theorem Flat.quad {S : FlatTri T} (h : S.Flat) {e a b c d : HE} (q : S.tri.Quad e a b c d) :
    S.vec (neg e) = -S.vec e ∧ S.vec (neg a) = -S.vec a ∧ S.vec (neg b) = -S.vec b ∧ S.vec (neg c) = -S.vec c ∧
    S.vec (neg d) = -S.vec d ∧ S.vec e + S.vec a + S.vec b = 0 ∧ -S.vec e + S.vec c + S.vec d = 0 ∧
    0 < cross (S.vec a) (S.vec b) ∧ 0 < cross (S.vec c) (S.vec d) := by
  obtain ⟨⟨ea, eb, ee', ec, ed⟩, ⟨ab, ae', ac, ad⟩, ⟨be', bc, bd⟩, ⟨e'c, e'd⟩, cd⟩ := q.ne
  obtain ⟨l1, l2, l3, l4, l5, l6⟩ := q.lt
  have h1 := h.closed e (by rw [q.fe]; exact ea.symm)
  have h2 := h.closed (neg e) (by rw [q.fe']; exact e'c.symm)
  have h3 := h.oriented a (by rw [q.fa]; exact ab.symm)
  have h4 := h.oriented c (by rw [q.fc]; exact cd.symm)
  rw [q.fe, q.fa] at h1
  rw [q.fe', q.fc, h.odd e l1] at h2
  rw [q.fa] at h3
  rw [q.fc] at h4
  exact ⟨h.odd e l1, h.odd a l2, h.odd b l3, h.odd c l4, h.odd d l5, h1, h2, h3, h4⟩

theorem Flat.convex_iff {S : FlatTri T} (h : S.Flat) (A : Option (Approx T K)) {e a b c d : HE}
    (q : S.tri.Quad e a b c d) :
    S.convex A e true = true ↔ 0 < cross (S.vec b) (S.vec c) ∧ 0 < cross (S.vec d) (S.vec a) := by
  obtain ⟨h1, h2, h3, h4, h5, -⟩ := h.quad q
  have e1 : S.tri.vertices.inv e = c := by rw [← h.coh.hv.left c, q.vc]
  have e2 : S.tri.vertices.inv (neg e) = a := by rw [← h.coh.hv.left a, q.va]
  unfold convex Tri.previousAtVertex Tri.nextAtVertex
  simp only [if_true, Bool.and_eq_true, decide_eq_true_eq, ccw_eq, ccwExact_ccw, e1, e2, q.ve, q.ve', h3, h5,
    cross_neg_right]
  rw [← cross_comm, ← cross_comm]

/-- What is different after a flip. -/
structure Flip (S S' : FlatTri T) (e a b c d : HE) : Prop where
  tri : S.tri.Flipped S'.tri e a b c d
  vec : S'.vec = Tracked.oddSet (fun v => -v) S.vec e (-(S.vec b + S.vec c))

theorem Flip.vec_e {S S' : FlatTri T} {e a b c d : HE} (f : S.Flip S' e a b c d) :
    S'.vec e = -(S.vec b + S.vec c) ∧ S'.vec (neg e) = S.vec b + S.vec c ∧
      ∀ x, x ≠ e → x ≠ neg e → S'.vec x = S.vec x := by
  rw [f.vec]
  unfold Tracked.oddSet
  refine ⟨by simp [ne_neg], by simp, fun x h1 h2 => by simp [h1, h2]⟩

theorem Flat.flip_flip {S : FlatTri T} (h : S.Flat) (A : Option (Approx T K)) (dbg : Bool) {e a b c d : HE}
    (q : S.tri.Quad e a b c d) (hc : S.convex A e true = true) :
    ∃ S', S.flip A dbg e = (S', .ok ()) ∧ S.tri.flip dbg e = (S'.tri, .ok ()) ∧ S.Flip S' e a b c d := by
  obtain ⟨t, h1, h2⟩ := flip_flipped h.coh q dbg
  have hp : t.faces.inv e = c := by rw [← h2.hf.left c, h2.fc]
  obtain ⟨g1, g2, g3, g4, g5, -⟩ := h.quad q
  refine ⟨⟨t, Tracked.oddSet (fun v => -v) S.vec e (-(S.vec b + S.vec c))⟩, ?_, h1, ⟨h2, rfl⟩⟩
  · unfold flip
    rw [if_neg (by have := q.lt.1; omega), hc, h1]
    simp only [Bool.not_true, Bool.false_eq_true, if_false, Tri.nextInFace, Tri.previousInFace, h2.fe, hp, g3, g4]
    rw [neg_add]

theorem Flip.flat {S S' : FlatTri T} (h : S.Flat) {e a b c d : HE} (q : S.tri.Quad e a b c d)
    (f : S.Flip S' e a b c d) (h1 : 0 < cross (S.vec b) (S.vec c)) (h2 : 0 < cross (S.vec d) (S.vec a)) : S'.Flat := by
  obtain ⟨g1, g2, g3, g4, g5, g6, g7, g8, g9⟩ := h.quad q
  obtain ⟨v1, v2, v3⟩ := f.vec_e
  obtain ⟨⟨ea, eb, ee', ec, ed⟩, ⟨ab, ae', ac, ad⟩, ⟨be', bc, bd⟩, ⟨e'c, e'd⟩, cd⟩ := q.ne
  have va := v3 a ea.symm ae'
  have vb := v3 b eb.symm be'
  have vc := v3 c ec.symm e'c.symm
  have vd := v3 d ed.symm e'd.symm
  have hs : S'.tri.size = S.tri.size := f.tri.vsize
  have hbc : S.vec b + S.vec c = -(S.vec a + S.vec d) := by
    rw [eq_neg_iff_add_eq_zero]
    calc S.vec b + S.vec c + (S.vec a + S.vec d) = (S.vec e + S.vec a + S.vec b) + (-S.vec e + S.vec c + S.vec d) := by abel
      _ = 0 := by rw [g6, g7, add_zero]
  have ff := f.tri
  have other : ∀ x, x ∉ [e, a, b, neg e, c, d] → S'.vec x = S.vec x := fun x hx => by
    rw [not_mem_six] at hx; exact v3 x hx.1 hx.2.2.2.1
  refine ⟨ff.coherent h.coh q, ff.vertexesOk h.coh.hv h.ver q, ?_, ?_, ?_⟩
  · intro x hx
    rw [hs] at hx
    by_cases hxe : x = e
    · subst hxe; rw [v1, v2, neg_neg]
    by_cases hxe' : x = neg e
    · subst hxe'; rw [neg_neg', v1, v2]
    rw [v3 x hxe hxe', v3 (neg x) (fun h' => hxe' (neg_eq_comm'.1 h')) (fun h' => hxe (neg_inj'.1 h')), h.odd x hx]
  · intro x hx
    by_cases hm : x ∈ [e, a, b, neg e, c, d]
    · rcases mem_six_cases hm with rfl | rfl | rfl | rfl | rfl | rfl
      · rw [ff.fe, ff.fb, v1, vb, vc]; abel
      · rw [ff.fa, ff.fe', v2, va, vd, hbc]; abel
      · rw [ff.fb, ff.fc, v1, vb, vc]; abel
      · rw [ff.fe', ff.fd, v2, va, vd, hbc]; abel
      · rw [ff.fc, ff.fe, v1, vb, vc]; abel
      · rw [ff.fd, ff.fa, v2, va, vd, hbc]; abel
    · have m1 := (q.fwd_not_mem h.coh).2 hm
      have m2 := (q.fwd_not_mem h.coh).2 m1
      rw [ff.fx x hm, ff.fx _ m1, other _ hm, other _ m1, other _ m2]
      rw [ff.fx x hm] at hx
      exact h.closed x hx
  · intro x hx
    by_cases hm : x ∈ [e, a, b, neg e, c, d]
    · rcases mem_six_cases hm with rfl | rfl | rfl | rfl | rfl | rfl
      · rw [ff.fe, v1, vb, cross_neg_left, cross_add_left, cross_self, zero_add, ← cross_comm]
        exact h1
      · rw [ff.fa, v2, va, hbc, cross_neg_right, cross_add_right, cross_self, zero_add, ← cross_comm]
        exact h2
      · rw [ff.fb, vb, vc]; exact h1
      · rw [ff.fe', v2, vd, hbc, cross_neg_left, cross_add_left, cross_self, add_zero, ← cross_comm]
        exact h2
      · rw [ff.fc, v1, vc, cross_neg_right, cross_add_right, cross_self, add_zero, ← cross_comm]
        exact h1
      · rw [ff.fd, va, vd]; exact h2
    · have m1 := (q.fwd_not_mem h.coh).2 hm
      rw [ff.fx x hm, other _ hm, other _ m1]
      rw [ff.fx x hm] at hx
      exact h.oriented x hx

/-- A successful flip. -/
theorem Flat.flip_ok {S S' : FlatTri T} (h : S.Flat) (A : Option (Approx T K)) (dbg : Bool) {e : HE}
    (hf : S.flip A dbg e = (S', .ok ())) :
    S.tri.flip dbg e = (S'.tri, .ok ()) ∧ ∃ a b c d, S.tri.Quad e a b c d ∧ S.Flip S' e a b c d ∧
      0 < cross (S.vec b) (S.vec c) ∧ 0 < cross (S.vec d) (S.vec a) := by
  have h1 : S.convex A e true = true ∧ ∃ t, S.tri.flip dbg e = (t, .ok ()) := by
    unfold flip at hf
    by_cases h1 : S.tri.size ≤ e
    · rw [if_pos h1] at hf; cases hf
    rw [if_neg h1] at hf
    by_cases h2 : (!convex A S e true) = true
    · rw [if_pos h2] at hf; cases hf
    rw [if_neg h2] at hf
    rcases ht : S.tri.flip dbg e with ⟨t, (err | u)⟩
    · rw [ht] at hf; cases hf
    · exact ⟨by simpa using h2, t, rfl⟩
  obtain ⟨hc, t, ht⟩ := h1
  have q := h.coh.quad (flippable_of_ok h.coh ht)
  obtain ⟨S'', h2, h3, h4⟩ := h.flip_flip A dbg q hc
  rw [hf] at h2
  cases h2
  obtain ⟨h5, h6⟩ := (h.convex_iff A q).1 hc
  exact ⟨h3, _, _, _, _, q, h4, h5, h6⟩

/-! ### Area -/

/-- Twice the area of the face of a half edge. -/
def faceArea (S : FlatTri T) (e : HE) : T :=
  if S.tri.faces.fwd e = e then 0 else cross (S.vec e) (S.vec (S.tri.faces.fwd e))

theorem Flat.faceArea_fwd {S : FlatTri T} (h : S.Flat) (e : HE) : S.faceArea (S.tri.faces.fwd e) = S.faceArea e := by
  by_cases he : S.tri.faces.fwd e = e
  · rw [he]
  · unfold faceArea
    rw [if_neg he, if_neg (h.fwd_ne he)]
    have := h.closed e he
    have hw : S.vec (S.tri.faces.fwd (S.tri.faces.fwd e)) = -(S.vec e + S.vec (S.tri.faces.fwd e)) := by
      rw [eq_neg_iff_add_eq_zero, ← this]; abel
    rw [hw, cross_neg_right, cross_add_right, cross_self, add_zero, ← cross_comm]

theorem sum_fwd {M : Type*} [AddCommMonoid M] {p : Perm} (hp : p.WF) {n : ℕ} (hn : p.size ≤ n) (g : HE → M) :
    ∑ e ∈ Finset.range n, g (p.fwd e) = ∑ e ∈ Finset.range n, g e := by
  refine Equiv.Perm.sum_comp (p.toEquiv hp) (Finset.range n) g ?_
  intro x hx
  rw [Finset.coe_range, Set.mem_Iio]
  by_contra hc
  exact hx (hp.out x (by omega))

/-- The half edge with the smallest index in its face. -/
abbrev canonical (S : FlatTri T) (e : HE) : Prop := e ≤ S.tri.faces.fwd e ∧ e ≤ S.tri.faces.inv e

theorem area2_eq_sum {S : FlatTri T} (hS : S.Flat) :
    S.area2 = ∑ e ∈ Finset.range S.tri.size, if S.canonical e then S.faceArea e else 0 := by
  unfold area2 Tri.halfEdges
  have key : ∀ (n : ℕ) (z : T), (List.range n).foldl (fun area e =>
      if S.tri.boundary e then area
      else if e > S.tri.nextInFace e then area
      else if e > S.tri.previousInFace e then area
      else area + Vec.area2 [S.vec e, S.vec (S.tri.nextInFace e), S.vec (S.tri.nextInFace (S.tri.nextInFace e))]) z =
      z + ∑ e ∈ Finset.range n, if S.canonical e then S.faceArea e else 0 := by
    intro n
    induction n with
    | zero => intro z; simp
    | succ n ih =>
      intro z
      rw [List.range_succ, List.foldl_append, ih, Finset.sum_range_succ]
      simp only [List.foldl_cons, List.foldl_nil]
      rw [← add_assoc]
      generalize z + ∑ e ∈ Finset.range n, (if S.canonical e then S.faceArea e else 0) = z'
      unfold faceArea canonical
      by_cases hb : S.tri.faces.fwd n = n
      · rw [if_pos (boundary_true.2 hb), if_pos hb]; simp
      rw [if_neg (by rw [boundary_false.2 hb]; simp), if_neg hb]
      unfold Tri.nextInFace Tri.previousInFace
      by_cases h1 : n > S.tri.faces.fwd n
      · rw [if_pos h1, if_neg (by omega), add_zero]
      by_cases h2 : n > S.tri.faces.inv n
      · rw [if_neg h1, if_pos h2, if_neg (by omega), add_zero]
      rw [if_neg h1, if_neg h2, if_pos (by omega)]
      congr 1
      have hw := hS.closed n hb
      have hx : (S.vec n).x + (S.vec (S.tri.faces.fwd n)).x + (S.vec (S.tri.faces.fwd (S.tri.faces.fwd n))).x = 0 := by
        simpa using congrArg Vec.x hw
      have hy : (S.vec n).y + (S.vec (S.tri.faces.fwd n)).y + (S.vec (S.tri.faces.fwd (S.tri.faces.fwd n))).y = 0 := by
        simpa using congrArg Vec.y hw
      simp only [Vec.area2, List.foldl_cons, List.foldl_nil, cross, add_x, add_y, zero_x, zero_y]
      linear_combination ((S.vec n).x + (S.vec (S.tri.faces.fwd n)).x) * hy -
        ((S.vec n).y + (S.vec (S.tri.faces.fwd n)).y) * hx
  rw [key, zero_add]

theorem Flat.canonical_unique {S : FlatTri T} (h : S.Flat) {e : HE} (he : S.tri.faces.fwd e ≠ e) :
    (if S.canonical e then (1 : T) else 0) + (if S.canonical (S.tri.faces.fwd e) then (1 : T) else 0) +
      (if S.canonical (S.tri.faces.fwd (S.tri.faces.fwd e)) then (1 : T) else 0) = 1 := by
  have h1 := h.fwd_ne he
  have h2 := h.fwd_ne h1
  have h3 := h.coh.tri e
  have i1 : S.tri.faces.inv e = S.tri.faces.fwd (S.tri.faces.fwd e) := by
    rw [← h.coh.hf.left (S.tri.faces.fwd (S.tri.faces.fwd e)), h3]
  have i2 := h.coh.hf.left e
  have i3 := h.coh.hf.left (S.tri.faces.fwd e)
  rw [h3] at h2
  unfold canonical
  rw [i1, i2, i3, h3]
  generalize S.tri.faces.fwd (S.tri.faces.fwd e) = z at *
  generalize S.tri.faces.fwd e = y at *
  rcases Nat.lt_trichotomy e y with h5 | h5 | h5 <;> rcases Nat.lt_trichotomy e z with h6 | h6 | h6 <;>
    rcases Nat.lt_trichotomy y z with h7 | h7 | h7 <;> first
    | (exfalso; omega)
    | (simp only [show (e ≤ y ∧ e ≤ z) ↔ True by simp; omega, show (y ≤ z ∧ y ≤ e) ↔ False by simp; omega,
        show (z ≤ e ∧ z ≤ y) ↔ False by simp; omega]; simp)
    | (simp only [show (e ≤ y ∧ e ≤ z) ↔ False by simp; omega, show (y ≤ z ∧ y ≤ e) ↔ True by simp; omega,
        show (z ≤ e ∧ z ≤ y) ↔ False by simp; omega]; simp)
    | (simp only [show (e ≤ y ∧ e ≤ z) ↔ False by simp; omega, show (y ≤ z ∧ y ≤ e) ↔ False by simp; omega,
        show (z ≤ e ∧ z ≤ y) ↔ True by simp; omega]; simp)

/-- Summing something that only depends on the face over all half edges counts each face three times. -/
theorem Flat.sum_faces {S : FlatTri T} (h : S.Flat) (g : HE → T) (hg : ∀ e, g (S.tri.faces.fwd e) = g e)
    (h0 : ∀ e, S.tri.faces.fwd e = e → g e = 0) :
    ∑ e ∈ Finset.range S.tri.size, g e = 3 * ∑ e ∈ Finset.range S.tri.size, if S.canonical e then g e else 0 := by
  have hn : S.tri.faces.size ≤ S.tri.size := h.coh.hs.le
  have e1 := sum_fwd h.coh.hf hn fun e => if S.canonical e then g e else 0
  have e2 := sum_fwd h.coh.hf hn fun e => if S.canonical (S.tri.faces.fwd e) then g (S.tri.faces.fwd e) else 0
  have e3 : ∀ e, g e = (if S.canonical e then g e else 0) +
      (if S.canonical (S.tri.faces.fwd e) then g (S.tri.faces.fwd e) else 0) +
      (if S.canonical (S.tri.faces.fwd (S.tri.faces.fwd e)) then g (S.tri.faces.fwd (S.tri.faces.fwd e)) else 0) := by
    intro e
    rw [hg (S.tri.faces.fwd e), hg e]
    by_cases he : S.tri.faces.fwd e = e
    · rw [h0 e he]; simp
    · have := h.canonical_unique he
      calc g e = g e * 1 := (mul_one _).symm
        _ = _ := by rw [← this, mul_add, mul_add]; simp only [mul_ite, mul_one, mul_zero]
  rw [Finset.sum_congr rfl fun e _ => e3 e, Finset.sum_add_distrib, Finset.sum_add_distrib, e2, e1]
  ring

theorem Flat.area2_sum {S : FlatTri T} (h : S.Flat) :
    3 * S.area2 = ∑ e ∈ Finset.range S.tri.size, S.faceArea e := by
  rw [area2_eq_sum h, h.sum_faces S.faceArea h.faceArea_fwd]
  intro e he
  exact if_pos he

/-- Sums over all half edges before and after a flip differ in six places. -/
theorem Flip.sum_sub {S S' : FlatTri T} {e a b c d : HE} (q : S.tri.Quad e a b c d)
    (f : S.Flip S' e a b c d) (g g' : HE → T) (hg : ∀ x, x ∉ [e, a, b, neg e, c, d] → g' x = g x) :
    ∑ x ∈ Finset.range S'.tri.size, g' x - ∑ x ∈ Finset.range S.tri.size, g x =
      (g' e + g' b + g' c + (g' (neg e) + g' d + g' a)) - (g e + g a + g b + (g (neg e) + g c + g d)) := by
  have hs : S'.tri.size = S.tri.size := f.tri.vsize
  rw [hs, ← Finset.sum_sub_distrib]
  have hsub : [e, a, b, neg e, c, d].toFinset ⊆ Finset.range S.tri.size := by
    intro x hx
    obtain ⟨l1, l2, l3, l4, l5, l6⟩ := q.lt
    rw [List.mem_toFinset] at hx
    rw [Finset.mem_range]
    rcases mem_six_cases hx with rfl | rfl | rfl | rfl | rfl | rfl <;> assumption
  rw [← Finset.sum_subset hsub]
  · rw [List.sum_toFinset _ q.nodup]
    simp only [List.map_cons, List.map_nil, List.sum_cons, List.sum_nil]
    ring
  · intro x _ hx
    rw [List.mem_toFinset] at hx
    rw [hg x hx, sub_self]

theorem Flip.area2 {S S' : FlatTri T} (h : S.Flat) (h' : S'.Flat) {e a b c d : HE} (q : S.tri.Quad e a b c d)
    (f : S.Flip S' e a b c d) : S'.area2 = S.area2 := by
  have h1 := f.sum_sub q S.faceArea S'.faceArea (by
    intro x hx
    have m1 := (q.fwd_not_mem h.coh).2 hx
    obtain ⟨-, -, v3⟩ := f.vec_e
    have hx' := not_mem_six.1 hx
    have m1' := not_mem_six.1 m1
    unfold faceArea
    rw [f.tri.fx x hx, v3 x hx'.1 hx'.2.2.2.1, v3 _ m1'.1 m1'.2.2.2.1])
  rw [← h.area2_sum, ← h'.area2_sum] at h1
  have s1 : S.faceArea a = S.faceArea e := by rw [← q.fe, h.faceArea_fwd]
  have s2 : S.faceArea b = S.faceArea a := by rw [← q.fa, h.faceArea_fwd]
  have s3 : S.faceArea c = S.faceArea (neg e) := by rw [← q.fe', h.faceArea_fwd]
  have s4 : S.faceArea d = S.faceArea c := by rw [← q.fc, h.faceArea_fwd]
  have t1 : S'.faceArea b = S'.faceArea e := by rw [← f.tri.fe, h'.faceArea_fwd]
  have t2 : S'.faceArea c = S'.faceArea b := by rw [← f.tri.fb, h'.faceArea_fwd]
  have t3 : S'.faceArea d = S'.faceArea (neg e) := by rw [← f.tri.fe', h'.faceArea_fwd]
  have t4 : S'.faceArea a = S'.faceArea d := by rw [← f.tri.fd, h'.faceArea_fwd]
  obtain ⟨⟨ea, eb, ee', ec, ed⟩, ⟨ab, ae', ac, ad⟩, ⟨be', bc, bd⟩, ⟨e'c, e'd⟩, cd⟩ := q.ne
  obtain ⟨g1, g2, g3, g4, g5, g6, g7, g8, g9⟩ := h.quad q
  obtain ⟨v1, v2, v3⟩ := f.vec_e
  have u1 : S.faceArea a = cross (S.vec a) (S.vec b) := by
    unfold faceArea; rw [q.fa, if_neg ab.symm]
  have u2 : S.faceArea c = cross (S.vec c) (S.vec d) := by
    unfold faceArea; rw [q.fc, if_neg cd.symm]
  have u3 : S'.faceArea b = cross (S.vec b) (S.vec c) := by
    unfold faceArea; rw [f.tri.fb, if_neg bc.symm, v3 b eb.symm be', v3 c ec.symm e'c.symm]
  have u4 : S'.faceArea d = cross (S.vec d) (S.vec a) := by
    unfold faceArea; rw [f.tri.fd, if_neg ad, v3 d ed.symm e'd.symm, v3 a ea.symm ae']
  have key : cross (S.vec b) (S.vec c) + cross (S.vec d) (S.vec a) =
      cross (S.vec a) (S.vec b) + cross (S.vec c) (S.vec d) := by
    have hx : (S.vec e).x + (S.vec a).x + (S.vec b).x = 0 := by simpa using congrArg Vec.x g6
    have hy : (S.vec e).y + (S.vec a).y + (S.vec b).y = 0 := by simpa using congrArg Vec.y g6
    have hx' : -(S.vec e).x + (S.vec c).x + (S.vec d).x = 0 := by simpa using congrArg Vec.x g7
    have hy' : -(S.vec e).y + (S.vec c).y + (S.vec d).y = 0 := by simpa using congrArg Vec.y g7
    have hd : (S.vec d).x = -(S.vec a).x - (S.vec b).x - (S.vec c).x := by linear_combination hx + hx'
    have hd' : (S.vec d).y = -(S.vec a).y - (S.vec b).y - (S.vec c).y := by linear_combination hy + hy'
    unfold cross
    rw [hd, hd']
    ring
  rw [t4, t2, ← t3, ← t1, s4, s2, ← s3, ← s1, u1, u2, u3, u4] at h1
  have h2 : 3 * (S'.area2 - S.area2) = 0 := by linear_combination h1 + 3 * key
  have h3 : S'.area2 - S.area2 = 0 := by
    rcases mul_eq_zero.1 h2 with h3 | h3
    · exact absurd h3 (by norm_num)
    · exact h3
  exact sub_eq_zero.1 h3

end Verif.FlatTri
