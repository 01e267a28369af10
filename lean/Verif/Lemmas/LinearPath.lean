import Verif.Lemmas.LinearDeformation
import Verif.Lemmas.Cone
import Verif.Spec.Path

/-!
# Lemmas about linear deformations of paths
-/

namespace Verif.FlatTri

open Spec Tri Vec

set_option linter.unusedSectionVars false

variable {T : Type} [CommRing T] [LinearOrder T] [IsStrictOrderedRing T]
variable {K : Type*} [Field K] [LinearOrder K] [IsStrictOrderedRing K]

theorem mul_neg_iff_pos {x y : T} (hx : 0 < x) : x * y < 0 ↔ y < 0 := by
  rw [← neg_pos, ← mul_neg, mul_pos_iff_of_pos_left hx, neg_pos]

theorem clockwise_iff (A : Option (Approx T K)) (S : FlatTri T) (v : Vec T) (e : HE) :
    S.clockwise A v e = true ↔ cross (S.vec e) v < 0 := by
  unfold clockwise
  rw [decide_eq_true_eq, ccw_eq, ccwExact_clockwise]

/-- The search for a sector ends after one step. -/
theorem sector_here (A : Option (Approx T K)) {S : FlatTri T} (h : S.Flat) {e : HE} {v : Vec T}
    (h1 : ¬ cross (S.vec e) v < 0) (h2 : cross (S.vec (S.tri.vertices.fwd e)) v < 0) {fuel : ℕ} (hf : 3 ≤ fuel) :
    S.sector A fuel e .counterclockwise v false = some (.ok e) := by
  obtain ⟨n, rfl⟩ := Nat.exists_eq_add_of_le' hf
  unfold sector
  rw [if_neg (by simp)]
  by_cases hs : Vec.ccw A (S.vec e) v = .collinear ∧ Vec.orientation A (S.vec e) v = .same
  · rw [if_pos ⟨hs, rfl⟩]
  · rw [if_neg (fun hx => hs hx.1), if_neg hs]
    have c1 : S.clockwise A v e = false := by rw [← Bool.not_eq_true, clockwise_iff]; exact h1
    have c2 : S.clockwise A v (S.tri.nextAtVertex e) = true := by rw [clockwise_iff]; exact h2
    simp only [if_true, walk, c1, c2, Bool.false_eq_true, if_false, Option.bind_some, Bool.not_false, Bool.not_true,
      Option.map_some]
    exact congrArg (fun x => some (Except.ok x)) (h.coh.hv.left e)

/-- The search for a sector ends after two steps. -/
theorem sector_next (A : Option (Approx T K)) {S : FlatTri T} (h : S.Flat) {e : HE} {v : Vec T}
    (h0 : 0 < cross (S.vec e) v) (h1 : ¬ cross (S.vec (S.tri.vertices.fwd e)) v < 0)
    (h2 : cross (S.vec (S.tri.vertices.fwd (S.tri.vertices.fwd e))) v < 0) {fuel : ℕ} (hf : 3 ≤ fuel) :
    S.sector A fuel e .counterclockwise v false = some (.ok (S.tri.vertices.fwd e)) := by
  obtain ⟨n, rfl⟩ := Nat.exists_eq_add_of_le' hf
  unfold sector
  have hs : ¬ (Vec.ccw A (S.vec e) v = .collinear ∧ Vec.orientation A (S.vec e) v = .same) := by
    rintro ⟨hc, -⟩
    rw [ccw_eq, ccwExact_collinear] at hc
    exact h0.ne' hc
  rw [if_neg (by simp), if_neg (fun hx => hs hx.1), if_neg hs]
  have c1 : S.clockwise A v e = false := by rw [← Bool.not_eq_true, clockwise_iff]; exact not_lt.2 h0.le
  have c2 : S.clockwise A v (S.tri.nextAtVertex e) = false := by rw [← Bool.not_eq_true, clockwise_iff]; exact h1
  have c3 : S.clockwise A v (S.tri.nextAtVertex (S.tri.nextAtVertex e)) = true := by rw [clockwise_iff]; exact h2
  simp only [if_true, walk, c1, c2, c3, Bool.false_eq_true, if_false, Option.bind_some, Bool.not_false, Bool.not_true,
    Option.map_some]
  exact congrArg (fun x => some (Except.ok x)) (h.coh.hv.left _)

/-- A direction along a half edge is counterclockwise from the previous half edge. -/
theorem Shut.before {S : FlatTri T} (h : S.Shut) {e : HE} (he : e < S.tri.size) {v : Vec T} (h0 : cross (S.vec e) v = 0)
    (h1 : cross (S.vec (S.tri.vertices.fwd e)) v < 0) : 0 < cross (S.vec (S.tri.vertices.inv e)) v := by
  have hne := h.flat.vec_ne (h.nb e he)
  have hn : 0 < dot (S.vec e) (S.vec e) := dot_self_pos hne
  have c1 := (h.flat.corner (h.nb e he)).2
  have hl : S.tri.vertices.inv e < S.tri.size := h.flat.coh.hv.inv_lt.2 he
  have c2 := (h.flat.corner (h.nb _ hl)).2
  rw [h.flat.coh.hv.right] at c2
  generalize S.vec e = u at *
  generalize S.vec (S.tri.vertices.fwd e) = w at *
  generalize S.vec (S.tri.vertices.inv e) = z at *
  unfold cross at *
  unfold dot at *
  have e1 : (u.x * u.x + u.y * u.y) * (w.x * v.y - w.y * v.x) = -((u.x * v.x + u.y * v.y) * (u.x * w.y - u.y * w.x)) := by
    linear_combination (w.x * u.x + w.y * u.y) * h0
  have e2 : (u.x * u.x + u.y * u.y) * (z.x * v.y - z.y * v.x) = (u.x * v.x + u.y * v.y) * (z.x * u.y - z.y * u.x) := by
    linear_combination (z.x * u.x + z.y * u.y) * h0
  have h2 : 0 < (u.x * v.x + u.y * v.y) * (u.x * w.y - u.y * w.x) := by
    have := mul_neg_of_pos_of_neg hn h1
    rw [e1] at this
    linarith
  have h3 : 0 < u.x * v.x + u.y * v.y := (mul_pos_iff_of_pos_right c1).1 h2
  have h4 := mul_pos h3 c2
  rw [← e2] at h4
  exact (mul_pos_iff_of_pos_left hn).1 h4

/-- The sector of the image of a direction. -/
theorem sector_image (A : Option (Approx T K)) {S S' : FlatTri T} (h : S.Shut) (h' : S'.Flat) {D : T} (hD : D ≠ 0)
    (hp : 0 < D → ∀ x, S'.tri.vertices.fwd x = S.tri.vertices.fwd x)
    (hn : D < 0 → ∀ x, S'.tri.vertices.fwd x = S.tri.vertices.inv x) {l : T} (hl : 0 < l) {v v' : Vec T}
    (hc : ∀ x, l * cross (S'.vec x) v' = D * cross (S.vec x) v) {e : HE} (he : e < S.tri.size)
    (hs : S.inSector A e v = true) :
    ∃ e', (∀ fuel ≥ 3, S'.sector A fuel (if 0 < D then e else S.tri.nextAtVertex e) .counterclockwise v' false =
      some (.ok e')) ∧ ImageCorner S D e v e' ∧ S'.inSector A e' v' = true ∧ e' < S.tri.size ∧ S.tri.vertices.Orb e e' := by
  rw [inSector_iff] at hs
  obtain ⟨h1, h2⟩ := hs
  rcases lt_or_gt_of_ne hD with hn' | hp'
  · have hneg : ∀ x, (cross (S'.vec x) v' < 0 ↔ 0 < cross (S.vec x) v) := by
      intro x
      rw [← mul_neg_iff_pos hl, hc, ← neg_pos, ← neg_mul, mul_pos_iff_of_pos_left (neg_pos.2 hn')]
    have hpos : ∀ x, (0 < cross (S'.vec x) v' ↔ cross (S.vec x) v < 0) := by
      intro x
      rw [← mul_pos_iff_of_pos_left hl, hc, ← neg_neg_iff_pos, ← neg_mul, mul_neg_iff_pos (neg_pos.2 hn')]
    rw [if_neg (not_lt.2 hn'.le)]
    have hfl : S.tri.vertices.fwd e < S.tri.size := h.flat.coh.hv.fwd_lt.2 he
    by_cases h0 : cross (S.vec e) v = 0
    · have hb := h.before he h0 h2
      refine ⟨e, fun fuel hf => ?_, ⟨fun _ => rfl, fun hx => absurd h0 hx.2⟩, ?_, he, Perm.Orb.refl _ _⟩
      · have := sector_next A h' (e := S.tri.vertices.fwd e) (v := v') ((hpos _).2 h2)
          (by rw [hn hn', h.flat.coh.hv.left, hneg, h0]; exact lt_irrefl _)
          (by rw [hn hn' (S.tri.vertices.fwd e), h.flat.coh.hv.left, hn hn', hneg]; exact hb) hf
        rw [hn hn', h.flat.coh.hv.left] at this
        exact this
      · rw [inSector_iff, hneg, hn hn', hneg, h0]
        exact ⟨lt_irrefl _, hb⟩
    · have h3 : 0 < cross (S.vec e) v := lt_of_le_of_ne (not_lt.1 h1) (Ne.symm h0)
      have h4 : S'.tri.vertices.fwd (S.tri.vertices.fwd e) = e := by rw [hn hn', h.flat.coh.hv.left]
      refine ⟨S.tri.vertices.fwd e, fun fuel hf => ?_, ⟨fun hx => ?_, fun _ => rfl⟩, ?_, hfl, Perm.Orb.step _ e⟩
      · refine sector_here A h' ?_ ?_ hf
        · rw [hneg]; exact not_lt.2 h2.le
        · unfold Tri.nextAtVertex; rw [h4, hneg]; exact h3
      · rcases hx with hx | hx
        · exact absurd hx (not_lt.2 hn'.le)
        · exact absurd hx h0
      · rw [inSector_iff, h4, hneg, hneg]
        exact ⟨not_lt.2 h2.le, h3⟩
  · have hneg : ∀ x, (cross (S'.vec x) v' < 0 ↔ cross (S.vec x) v < 0) := by
      intro x
      rw [← mul_neg_iff_pos hl, hc, mul_neg_iff_pos hp']
    rw [if_pos hp']
    refine ⟨e, fun fuel hf => ?_, ⟨fun _ => rfl, fun hx => absurd hx.1 (not_lt.2 hp'.le)⟩, ?_, he, Perm.Orb.refl _ _⟩
    · refine sector_here A h' ?_ ?_ hf
      · rwa [hneg]
      · rwa [hp hp', hneg]
    · rw [inSector_iff, hp hp', hneg, hneg]
      exact ⟨h1, h2⟩

theorem chainVector_congr (S : FlatTri T) {c c' : ℕ → ℤ} (h : ∀ i < S.tri.size / 2, c i = c' i) :
    S.chainVector c = S.chainVector c' := by
  rw [chainVector_eq, chainVector_eq]
  congr 1
  refine List.map_congr_left fun i hi => ?_
  rw [h i (List.mem_range.1 hi)]

namespace LinearImage

variable {dbg : Bool} {S S' : FlatTri T} {a b c d : T}

theorem chain (h : LinearImage dbg S S' a b c d) (x : ℕ → ℤ) :
    S'.chainVector x = (S.chainVector x).applyMatrix a b c d := by
  rw [chainVector_eq, chainVector_eq, h.size]
  generalize List.range (S.tri.size / 2) = l
  induction l with
  | nil => ext <;> simp [Vec.applyMatrix]
  | cons i l ih =>
    rw [List.map_cons, List.map_cons, List.sum_cons, List.sum_cons, ih, h.vec]
    ext <;> simp [Vec.applyMatrix] <;> ring

theorem fwd_pos (h : LinearImage dbg S S' a b c d) (hd : 0 < a * d - b * c) (x : HE) :
    S'.tri.vertices.fwd x = S.tri.vertices.fwd x := (h.pos hd).nextAtVertex x

theorem fwd_neg (h : LinearImage dbg S S' a b c d) (hd : a * d - b * c < 0) (x : HE) :
    S'.tri.vertices.fwd x = S.tri.vertices.inv x := (h.neg hd).nextAtVertex x

/-- Half edges start at the same vertex of the domain and of the codomain. -/
theorem orb_iff (h : LinearImage dbg S S' a b c d) {x y : HE} : S'.tri.vertices.Orb x y ↔ S.tri.vertices.Orb x y := by
  have hv := h.closed.shut.flat.coh.hv
  have hv' := h.closed'.shut.flat.coh.hv
  rcases lt_or_gt_of_ne h.det with hn | hp
  · refine ⟨fun ho => ho.map (π := id) fun z => ?_, fun ho => ho.map (π := id) fun z => ?_⟩
    · rw [h.fwd_neg hn]
      exact Perm.Orb.symm hv ⟨1, hv.right z⟩
    · refine Perm.Orb.symm hv' ⟨1, ?_⟩
      exact (h.fwd_neg hn _).trans (hv.left z)
  · refine ⟨fun ho => ho.map (π := id) fun z => ?_, fun ho => ho.map (π := id) fun z => ?_⟩
    · rw [h.fwd_pos hp]
      exact Perm.Orb.step _ _
    · rw [← h.fwd_pos hp]
      exact Perm.Orb.step _ _

end LinearImage

theorem Shut.connected_iff {S : FlatTri T} (h : S.Shut) {s t : Saddle} (hs : s.target < S.tri.size)
    (ht : t.source < S.tri.size) : S.connected s t = true ↔ S.tri.vertices.Orb s.target t.source := by
  obtain ⟨v, h1, h2⟩ := h.source hs
  unfold FlatTri.connected
  rw [h1]
  exact h.isSource ht h2

theorem inSector_leaves (A : Option (Approx T K)) {S : FlatTri T} {e : HE} {v : Vec T} (h : LeavesCorner S e v) :
    S.inSector A e v = true := by
  rw [inSector_iff]
  exact ⟨not_lt.2 h.2.1, h.2.2⟩

theorem leaves_inSector (A : Option (Approx T K)) {S : FlatTri T} {e : HE} {v : Vec T} (he : e < S.tri.size)
    (h : S.inSector A e v = true) : LeavesCorner S e v := by
  rw [inSector_iff] at h
  exact ⟨he, not_lt.1 h.1, h.2⟩

theorem cross_neg_right' (u v : Vec T) : cross u (-v) = -cross u v := by
  unfold cross
  simp
  ring

/-- The image of a segment, forwards with `l = 1` and backwards with `l` the square of the determinant. -/
theorem segment_image (A : Option (Approx T K)) (dbg : Bool) {S S' : FlatTri T} (h : S.Shut) (h' : S'.Shut) {a b c d : T}
    (hD : a * d - b * c ≠ 0) (hsize : S'.tri.size = S.tri.size)
    (hp : 0 < a * d - b * c → ∀ x, S'.tri.vertices.fwd x = S.tri.vertices.fwd x)
    (hn : a * d - b * c < 0 → ∀ x, S'.tri.vertices.fwd x = S.tri.vertices.inv x) {l : T} (hl : 0 < l) {s : Saddle}
    (hc : ∀ x, l * cross (S'.vec x) (S'.saddleVector s) = (a * d - b * c) * cross (S.vec x) (S.saddleVector s))
    (hs : IsSegment S s) :
    ∃ s', (∀ fuel ≥ 3, linearSegment A dbg fuel S S' a b c d s = some (.ok s')) ∧ IsSegment S' s' ∧
      S'.saddleVector s' = S'.saddleVector s ∧ ImageCorner S (a * d - b * c) s.source (S.saddleVector s) s'.source ∧
      ImageCorner S (a * d - b * c) s.target (-S.saddleVector s) s'.target ∧
      S.tri.vertices.Orb s.source s'.source ∧ S.tri.vertices.Orb s.target s'.target := by
  obtain ⟨s1, s2⟩ := hs
  obtain ⟨e, e1, e2, e3, e4, e5⟩ := sector_image A h h'.flat hD hp hn hl hc s1.1 (inSector_leaves A s1)
  have hc' : ∀ x, l * cross (S'.vec x) (-S'.saddleVector s) = (a * d - b * c) * cross (S.vec x) (-S.saddleVector s) := by
    intro x
    rw [cross_neg_right', cross_neg_right', mul_neg, mul_neg, hc]
  obtain ⟨g, g1, g2, g3, g4, g5⟩ := sector_image A h h'.flat hD hp hn hl hc' s2.1 (inSector_leaves A s2)
  set chain : ℕ → ℤ := fun i => if i < S.tri.size / 2 then s.chain i else 0 with hchain
  have hv : S'.chainVector chain = S'.saddleVector s := by
    unfold saddleVector
    refine chainVector_congr S' fun i hi => ?_
    rw [hsize] at hi
    simp only [hchain, if_pos hi]
  refine ⟨⟨e, g, chain⟩, fun fuel hf => ?_, ⟨?_, ?_⟩, hv, e2, g2, e5, g5⟩
  · have hmake : Saddle.make dbg S'.tri.size e g chain = .ok ⟨e, g, chain⟩ := by
      unfold Saddle.make
      rw [if_neg]
      rw [Bool.and_eq_true]
      rintro ⟨-, h0⟩
      have h1 : S'.chainVector chain = 0 := by
        rw [chainVector_congr S' (c' := fun _ => 0), chainVector_zero]
        intro i hi
        simpa using List.all_eq_true.1 h0 i (List.mem_range.2 hi)
      have h2 := (leaves_inSector A (hsize ▸ e4) e3).2.2
      rw [← hv, h1, cross_zero_right] at h2
      exact lt_irrefl _ h2
    have k1 := e1 fuel hf
    have k2 := g1 fuel hf
    unfold linearSegment
    simp only [← hchain, hv, decide_eq_true_eq, gt_iff_lt, k1, k2, Option.bind_some, Option.map_some]
    exact congrArg some hmake
  · exact leaves_inSector A (hsize ▸ e4) (by rw [show S'.saddleVector ⟨e, g, chain⟩ = _ from hv]; exact e3)
  · exact leaves_inSector A (hsize ▸ g4) (by rw [show S'.saddleVector ⟨e, g, chain⟩ = _ from hv]; exact g3)

/-- The loop over the segments of a path. -/
theorem path_image (A : Option (Approx T K)) (dbg : Bool) {S S' : FlatTri T} {a b c d : T} {R : Saddle → Saddle → Prop}
    (hR : ∀ s s' t t', R s s' → R t t' → S.connected s t = true → S'.connected s' t' = true) (path : List Saddle) :
    (∀ s ∈ path, ∃ s', (∀ fuel ≥ 3, linearSegment A dbg fuel S S' a b c d s = some (.ok s')) ∧ R s s') →
    ∀ image : List Saddle, path.IsChain (fun s t => S.connected s t = true) →
      (∀ l ∈ image.getLast?, ∃ s, R s l ∧ ∀ t ∈ path.head?, S.connected s t = true) →
      image.IsChain (fun s t => S'.connected s t = true) →
      ∃ path', (∀ fuel ≥ 3, linearPathLoop A dbg fuel S S' a b c d image path = some (.ok (image ++ path'))) ∧
        List.Forall₂ R path path' ∧ (image ++ path').IsChain (fun s t => S'.connected s t = true) := by
  induction path with
  | nil => intro _ image _ _ hi; exact ⟨[], fun _ _ => by simp [linearPathLoop], .nil, by simpa using hi⟩
  | cons s path ih =>
    intro hs image hc hl hi
    obtain ⟨s', h1, h2⟩ := hs s (by simp)
    have hcon : ∀ l ∈ image.getLast?, S'.connected l s' = true := by
      intro l hl'
      obtain ⟨r, h3, h4⟩ := hl l hl'
      exact hR _ _ _ _ h3 h2 (h4 s (by simp))
    have hpush : pathPush dbg S' image s' = .ok (image ++ [s']) := by
      unfold pathPush
      cases hx : image.getLast? with
      | none => rfl
      | some l => simp [hcon l (by rw [hx]; rfl)]
    have hi' : (image ++ [s']).IsChain (fun s t => S'.connected s t = true) := by
      rw [List.isChain_append]
      refine ⟨hi, by simp, fun x hx y hy => ?_⟩
      simp at hy
      subst hy
      exact hcon x hx
    obtain ⟨path', h3, h4, h5⟩ := ih (fun t ht => hs t (by simp [ht])) (image ++ [s']) hc.tail (by
      intro l hl'
      rw [List.getLast?_concat] at hl'
      cases hl'
      refine ⟨s, h2, fun t ht => ?_⟩
      cases path with
      | nil => cases ht
      | cons t' path =>
        cases ht
        rw [List.isChain_cons_cons] at hc
        exact hc.1) hi'
    refine ⟨s' :: path', fun fuel hf => ?_, .cons h2 h4, by simpa using h5⟩
    have := h3 fuel hf
    simp only [linearPathLoop, h1 fuel hf, hpush]
    rw [this]
    simp

theorem connected_chain {S : FlatTri T} {path : List Saddle} :
    Spec.Connected S path ↔ path.IsChain (fun s t => S.connected s t = true) := by
  unfold Spec.Connected
  constructor
  · exact fun h => h.imp fun s t hst => _root_.Verif.connected_iff.2 hst
  · exact fun h => h.imp fun s t hst => _root_.Verif.connected_iff.1 hst

end Verif.FlatTri
