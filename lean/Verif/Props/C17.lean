import Verif.Lemmas.FlatExamples
import Verif.Props.C06

/-!
# C17: A flat triangulation stays flat under flips
-/

namespace Verif.C17

open Verif Spec Tri FlatTri Examples

variable {T : Type} [CommRing T] [LinearOrder T] [IsStrictOrderedRing T]
variable {K : Type*} [Field K] [LinearOrder K] [IsStrictOrderedRing K]

/-- After a sequence of flips, the surface is flat, has the same half edges, boundary and area; only the vectors of flipped
edges have changed. -/
theorem flips_flat (A : Option (Approx T K)) {dbg : Bool} {S S' : FlatTri T} (h : S.tri.Reachable dbg) (hf : IsFlat S)
    {es : List HE} (hS : S.flips A dbg es = some S') :
    S'.tri.Reachable dbg ∧ IsFlat S' ∧ S'.area2 = S.area2 ∧ S'.tri.halfEdges = S.tri.halfEdges ∧
      (∀ e, S'.tri.boundary e = S.tri.boundary e) ∧ ∀ e, e ∉ es → neg e ∉ es → S'.vec e = S.vec e := by
  induction es generalizing S with
  | nil => cases hS; exact ⟨h, hf, rfl, rfl, fun _ => rfl, fun _ _ _ => rfl⟩
  | cons e es ih =>
    unfold FlatTri.flips at hS
    rcases he : S.flip A dbg e with ⟨S1, (err | u)⟩
    · rw [he] at hS; cases hS
    · rw [he] at hS
      have hF := IsFlat.flat h hf
      obtain ⟨h1, a, b, c, d, q, f, p1, p2⟩ := hF.flip_ok A dbg he
      have hF' := f.flat hF q p1 p2
      have hr := Reachable.flip h h1
      have hp := C06.flip_preserves h h1
      obtain ⟨g1, g2, g3, g4, g5, g6⟩ := ih hr hF'.isFlat hS
      refine ⟨g1, g2, g3.trans (f.area2 hF hF' q), g4.trans hp.halfEdges, fun x => (g5 x).trans (hp.boundary x),
        fun x hx hx' => ?_⟩
      rw [List.mem_cons, not_or] at hx hx'
      rw [g6 x hx.2 hx'.2, f.vec_e.2.2 x hx.1 (fun hc => hx'.1 (by rw [hc, neg_neg']))]

/-- An edge can be flipped exactly when it is not on the boundary and the triangles at that edge form a strictly convex
quadrilateral. -/
theorem flip_succeeds_iff (A : Option (Approx T K)) {dbg : Bool} {S : FlatTri T} (h : S.tri.Reachable dbg)
    (hf : IsFlat S) (e : HE) :
    (∃ S', S.flip A dbg e = (S', .ok ())) ↔
      e ∈ S.tri.halfEdges ∧ S.tri.boundary e = false ∧ S.tri.boundary (neg e) = false ∧ ConvexAt S e := by
  have hF := IsFlat.flat h hf
  constructor
  · rintro ⟨S', hS⟩
    obtain ⟨h1, a, b, c, d, q, f, p1, p2⟩ := hF.flip_ok A dbg hS
    obtain ⟨g1, g2, g3, g4, g5, g6, g7, g8, g9⟩ := hF.quad q
    obtain ⟨i1, i2, i3, -⟩ := (C06.flip_succeeds_iff h e).1 ⟨_, h1⟩
    refine ⟨i1, i2, i3, ?_⟩
    unfold ConvexAt StrictlyConvex4 Tri.nextInFace
    simp only [q.fe', q.fc, q.fe, q.fa]
    exact ⟨g9, p2, g8, p1⟩
  · rintro ⟨h1, h2, h3, h4⟩
    have q := hF.coh.quad (hF.flippable (boundary_false.1 h2) (boundary_false.1 h3))
    obtain ⟨S', h5, -⟩ := hF.flip_flip A dbg q ((hF.convex_iff A q).2 ⟨h4.2.2.2, h4.2.1⟩)
    exact ⟨S', h5⟩

/-- A flip turns the diagonal of the quadrilateral counterclockwise. -/
theorem flip_diagonal (A : Option (Approx T K)) {dbg : Bool} {S S' : FlatTri T} (h : S.tri.Reachable dbg)
    (hf : IsFlat S) {e : HE} (hS : S.flip A dbg e = (S', .ok ())) :
    let a := S.tri.nextInFace e
    let d := S.tri.previousInFace (neg e)
    S'.vec e = S.vec d + S.vec a ∧ 0 < Vec.cross (S.vec e) (S'.vec e) ∧
      S'.tri.nextInFace e = S.tri.nextInFace a ∧ S'.tri.nextInFace (neg e) = d := by
  have hF := IsFlat.flat h hf
  obtain ⟨h1, a, b, c, d, q, f, p1, p2⟩ := hF.flip_ok A dbg hS
  obtain ⟨g1, g2, g3, g4, g5, g6, g7, g8, g9⟩ := hF.quad q
  have hd : S.tri.faces.inv (neg e) = d := by rw [← hF.coh.hf.left d, q.fd]
  unfold Tri.nextInFace Tri.previousInFace
  simp only [q.fe, q.fa, hd]
  have hv : S'.vec e = S.vec d + S.vec a := by
    rw [f.vec_e.1, neg_eq_iff_add_eq_zero]
    calc S.vec b + S.vec c + (S.vec d + S.vec a) = (S.vec e + S.vec a + S.vec b) + (-S.vec e + S.vec c + S.vec d) := by abel
      _ = 0 := by rw [g6, g7, add_zero]
  refine ⟨hv, ?_, f.tri.fe, f.tri.fe'⟩
  have k1 : S.vec e = S.vec c + S.vec d := by
    rw [← sub_eq_zero, ← neg_eq_zero, ← g7]
    abel
  have k2 : S.vec e = -(S.vec a + S.vec b) := by
    rw [eq_neg_iff_add_eq_zero, ← add_assoc, g6]
  rw [hv, Vec.cross_add_right]
  have e1 : Vec.cross (S.vec e) (S.vec d) = Vec.cross (S.vec c) (S.vec d) := by
    rw [k1, Vec.cross_add_left, Vec.cross_self, add_zero]
  have e2 : Vec.cross (S.vec e) (S.vec a) = Vec.cross (S.vec a) (S.vec b) := by
    rw [k2, Vec.cross_neg_left, Vec.cross_add_left, Vec.cross_self, zero_add, ← Vec.cross_comm]
  rw [e1, e2]
  exact add_pos g9 g8

/-- For edges which are not on the boundary, a flip which cannot be performed leaves the surface unchanged. -/
theorem flip_rejects (A : Option (Approx T K)) {dbg : Bool} {S : FlatTri T} (h : S.tri.Reachable dbg)
    (hf : IsFlat S) {e : HE} (he : e ∈ S.tri.halfEdges) (hb : S.tri.boundary e = false)
    (hb' : S.tri.boundary (neg e) = false) (hc : ¬ ConvexAt S e) : S.flip A dbg e = (S, .error .invalidArgument) := by
  have hF := IsFlat.flat h hf
  have q := hF.coh.quad (hF.flippable (boundary_false.1 hb) (boundary_false.1 hb'))
  have hn : S.convex A e true = false := by
    by_contra hx
    rw [Bool.not_eq_false] at hx
    obtain ⟨S', h5, -⟩ := hF.flip_flip A dbg q hx
    exact hc ((flip_succeeds_iff A h hf e).1 ⟨S', h5⟩).2.2.2
  rw [mem_halfEdges] at he
  unfold FlatTri.flip
  rw [if_neg (by omega), hn]
  rfl

/-- In any case, if a half edge cannot be flipped, an exception is thrown. -/
theorem flip_throws (A : Option (Approx T K)) {dbg : Bool} {S : FlatTri T} (h : S.tri.Reachable dbg)
    (hf : IsFlat S) {e : HE} (he : e ∈ S.tri.halfEdges)
    (hn : ¬ (S.tri.boundary e = false ∧ S.tri.boundary (neg e) = false ∧ ConvexAt S e)) :
    (S.flip A dbg e).2 = .error .invalidArgument := by
  have hns : ¬ ∃ S', S.flip A dbg e = (S', .ok ()) := fun hx => hn ((flip_succeeds_iff A h hf e).1 hx).2
  have hlt := mem_halfEdges.1 he
  unfold FlatTri.flip at hns ⊢
  rw [if_neg (by omega)] at hns ⊢
  by_cases hc : (!convex A S e true) = true
  · rw [if_pos hc]
  rw [if_neg hc] at hns ⊢
  rcases ht : S.tri.flip dbg e with ⟨t, (err | u)⟩
  · simp only
    congr 1
    by_cases hF : S.tri.Flippable e
    · obtain ⟨t', h4, -⟩ := flip_flipped h.inv.1 (h.inv.1.quad hF) dbg
      rw [ht] at h4; cases h4
    by_cases hb : dbg = true ∨ S.tri.faces.fwd (neg e) ≠ neg e ∨ S.tri.faces.fwd e = e
    · rw [Tri.flip_rejects h.inv.1 hlt hF dbg hb] at ht
      cases ht; rfl
    · push Not at hb
      have hlt' := (h.inv.1.neg_lt e).2 hlt
      have hb1 : ¬ (dbg = true ∧ ((S.tri.boundary e || S.tri.boundary (neg e)) = true)) := fun hx => by simp [hb.1] at hx
      unfold Tri.flip Tri.boundary Tri.nextInFace at ht
      rw [if_neg (by omega)] at ht
      have hd : dbg = false := by simpa using hb.1
      subst hd
      simp only [hb.2.1] at ht
      cases hv : S.tri.vertices.mulCycle [S.tri.faces.fwd (S.tri.faces.fwd e), S.tri.faces.fwd e, neg e] with
      | error er =>
        have hin : ¬ ∃ x ∈ [S.tri.faces.fwd (S.tri.faces.fwd e), S.tri.faces.fwd e, neg e], S.tri.vertices.size ≤ x := by
          have l1 : S.tri.faces.fwd e < S.tri.vertices.size := by
            rw [← h.inv.1.hs, h.inv.1.hf.fwd_lt, h.inv.1.hs]; exact hlt
          have l2 : S.tri.faces.fwd (S.tri.faces.fwd e) < S.tri.vertices.size := by
            rw [← h.inv.1.hs, h.inv.1.hf.fwd_lt, h.inv.1.hs]; exact l1
          have l3 : neg e < S.tri.vertices.size := hlt'
          simp only [List.mem_cons, List.not_mem_nil, or_false, exists_eq_or_imp, exists_eq_left]
          omega
        rw [hv] at ht
        unfold Perm.mulCycle at hv
        rw [if_neg hin] at hv
        split_ifs at hv
        cases hv
        simp at ht
        exact ht.2.symm
      | ok v1 =>
        rw [hv] at ht
        have := mulCycle_three_repeat (p := v1) (x := neg e) (y := neg e) (z := e) (Or.inr (neg_ne e)) (Or.inl rfl)
        simp [this] at ht
        exact ht.2.symm
  · rw [ht] at hns
    exact absurd ⟨_, rfl⟩ hns

/-- Flips of the torus: the vector of the diagonal is turned. -/
example : ∃ S', flatTorus.flips (none : Option (Approx ℤ ℚ)) true [4, 0] = some S' ∧ S'.area2 = 2 ∧
    S'.vec 4 = ⟨-1, 1⟩ ∧ S'.vec 0 = ⟨-1, 2⟩ := ⟨_, rfl, by decide +kernel, by decide +kernel, by decide +kernel⟩

example : ∃ S', IsFlat flatTorus ∧ flatTorus.flip (none : Option (Approx ℤ ℚ)) true 4 = (S', .ok ()) :=
  ⟨_, flatTorus_isFlat, rfl⟩

/-- The quadrilateral of the dart cannot be flipped. -/
example : dart.flip (none : Option (Approx ℤ ℚ)) true 0 = (dart, .error .invalidArgument) :=
  flip_rejects none (square_reachable true) dart_isFlat (by decide) (by decide) (by decide)
    (by unfold ConvexAt StrictlyConvex4; decide)

end Verif.C17
