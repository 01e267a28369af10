import Verif.Lemmas.FlipPoint
import Verif.Lemmas.LinearPath
import Verif.Spec.FlipPath

/-!
# Lemmas about flips and paths
-/

namespace Verif

open Spec Tri FlatTri Vec

set_option linter.unusedSectionVars false

variable {T : Type} [CommRing T] [LinearOrder T] [IsStrictOrderedRing T]
variable {K : Type*} [Field K] [LinearOrder K] [IsStrictOrderedRing K]

namespace FlatTri

/-- In a cone spanned by `u` and `w`, which is counterclockwise from `z`, directions are counterclockwise from `z`. -/
theorem cone_left {z u w v : Vec T} (h1 : 0 < cross z u) (h2 : 0 < cross u w) (h3 : 0 < cross z w)
    (h4 : 0 ≤ cross u v) (h5 : cross w v < 0) : 0 < cross z v := by
  have e : cross u w * cross z v = -cross w v * cross z u + cross u v * cross z w := by
    unfold cross
    ring
  have h6 : 0 < cross u w * cross z v := by
    rw [e]
    have := mul_pos (neg_pos.2 h5) h1
    have := mul_nonneg h4 h3.le
    linarith
  exact (mul_pos_iff_of_pos_left h2).1 h6

/-- In a cone spanned by `z` and `u`, which is clockwise from `w`, directions are clockwise from `w`. -/
theorem cone_right {z u w v : Vec T} (h1 : 0 < cross z u) (h2 : 0 < cross u w) (h3 : 0 < cross z w)
    (h4 : 0 ≤ cross z v) (h5 : cross u v < 0) : cross w v < 0 := by
  have e : cross z u * cross w v = cross u v * cross z w - cross z v * cross u w := by
    unfold cross
    ring
  have h6 : cross z u * cross w v < 0 := by
    rw [e]
    have := mul_neg_of_neg_of_pos h5 h3
    have := mul_nonneg h4 h2.le
    linarith
  exact (mul_neg_iff_pos h1).1 h6

/-- The half edge `x` is between `y` and `z` on the surface `S` but it is not there on the surface `S'`. -/
structure Between (S S' : FlatTri T) (y x z : HE) : Prop where
  shut : S.Shut
  shut' : S'.Shut
  size : S'.tri.size = S.tri.size
  lt : y < S.tri.size
  first : S.tri.vertices.fwd y = x
  second : S.tri.vertices.fwd x = z
  both : S'.tri.vertices.fwd y = z
  vec : S'.vec y = S.vec y
  vec' : S'.vec z = S.vec z

namespace Between

variable {S S' : FlatTri T} {y x z : HE} {v : Vec T}

theorem lt' (h : Between S S' y x z) : x < S.tri.size := by
  rw [← h.first]
  exact h.shut.flat.coh.hv.fwd_lt.2 h.lt

theorem crosses (h : Between S S' y x z) : 0 < cross (S.vec y) (S.vec x) ∧ 0 < cross (S.vec x) (S.vec z) ∧
    0 < cross (S.vec y) (S.vec z) := by
  have h1 := (h.shut.flat.corner (h.shut.nb y h.lt)).2
  have h2 := (h.shut.flat.corner (h.shut.nb x h.lt')).2
  have h3 := (h.shut'.flat.corner (h.shut'.nb y (h.size.symm ▸ h.lt))).2
  rw [h.first] at h1
  rw [h.second] at h2
  rw [h.both, h.vec, h.vec'] at h3
  exact ⟨h1, h2, h3⟩

theorem merge_second (h : Between S S' y x z) (hv : LeavesCorner S x v) : LeavesCorner S' y v := by
  obtain ⟨c1, c2, c3⟩ := h.crosses
  obtain ⟨l, p, n⟩ := hv
  unfold Tri.nextAtVertex at n
  rw [h.second] at n
  refine ⟨h.size.symm ▸ h.lt, ?_, ?_⟩
  · rw [h.vec]
    exact (cone_left c1 c2 c3 p n).le
  · unfold Tri.nextAtVertex
    rwa [h.both, h.vec']

theorem merge_first (h : Between S S' y x z) (hv : LeavesCorner S y v) : LeavesCorner S' y v := by
  obtain ⟨c1, c2, c3⟩ := h.crosses
  obtain ⟨l, p, n⟩ := hv
  unfold Tri.nextAtVertex at n
  rw [h.first] at n
  refine ⟨h.size.symm ▸ h.lt, ?_, ?_⟩
  · rwa [h.vec]
  · unfold Tri.nextAtVertex
    rw [h.both, h.vec']
    exact cone_right c1 c2 c3 p n

theorem split_first (h : Between S S' y x z) (hv : LeavesCorner S' y v) (hx : cross (S.vec x) v < 0) :
    LeavesCorner S y v := by
  obtain ⟨l, p, n⟩ := hv
  refine ⟨h.lt, ?_, ?_⟩
  · rwa [← h.vec]
  · unfold Tri.nextAtVertex
    rwa [h.first]

theorem split_second (h : Between S S' y x z) (hv : LeavesCorner S' y v) (hx : ¬ cross (S.vec x) v < 0) :
    LeavesCorner S x v ∧ 0 < cross (S.vec y) v := by
  obtain ⟨c1, c2, c3⟩ := h.crosses
  obtain ⟨l, p, n⟩ := hv
  unfold Tri.nextAtVertex at n
  rw [h.both, h.vec'] at n
  refine ⟨⟨h.lt', not_lt.1 hx, ?_⟩, cone_left c1 c2 c3 (not_lt.1 hx) n⟩
  unfold Tri.nextAtVertex
  rwa [h.second]

/-- The search for a sector on the surface without the half edge. -/
theorem sector_merged (h : Between S S' y x z) (A : Option (Approx T K)) (hv : LeavesCorner S' y v) {fuel : ℕ}
    (hf : 3 ≤ fuel) : S'.sector A fuel y .counterclockwise v false = some (.ok y) :=
  sector_here A h.shut'.flat (not_lt.2 hv.2.1) hv.2.2 hf

/-- The search for a sector on the surface with the half edge. -/
theorem sector_split (h : Between S S' y x z) (A : Option (Approx T K)) (hv : LeavesCorner S' y v) :
    ∃ w, (w = y ∨ w = x) ∧ LeavesCorner S w v ∧
      ∀ fuel ≥ 3, S.sector A fuel y .counterclockwise v false = some (.ok w) := by
  by_cases hx : cross (S.vec x) v < 0
  · have := h.split_first hv hx
    exact ⟨y, .inl rfl, this, fun fuel hf => sector_here A h.shut.flat (not_lt.2 this.2.1) this.2.2 hf⟩
  · obtain ⟨h1, h2⟩ := h.split_second hv hx
    refine ⟨x, .inr rfl, h1, fun fuel hf => ?_⟩
    have := sector_next A h.shut.flat h2 (by rw [h.first]; exact hx) (by rw [h.first]; exact h1.2.2) hf
    rwa [h.first] at this

end Between

end FlatTri

namespace Diagonals

variable {S S' : FlatTri T} {e e' a b c d : HE}

/-- Away from the quadrilateral, the next half edge at a vertex is the same before and after the flip. -/
theorem fwd_away (h : Diagonals S S' e e' a b c d) {x : HE} (hx : x ∉ [e, a, b, neg e, c, d]) (hl : x < S.tri.size) :
    S'.tri.vertices.fwd x = S.tri.vertices.fwd x := by
  have hl' : x < S'.tri.size := by rw [h.size]; exact hl
  have hy : ∀ y, S.tri.faces.fwd y = x → y ∉ [e, a, b, neg e, c, d] := by
    intro y hy hm
    apply hx
    rw [← hy]
    simp only [List.mem_cons, List.not_mem_nil, or_false] at hm ⊢
    rcases hm with rfl | rfl | rfl | rfl | rfl | rfl
    · simp [h.quad.fe]
    · simp [h.quad.fa]
    · simp [h.quad.fb]
    · simp [h.quad.fe']
    · simp [h.quad.fc]
    · simp [h.quad.fd]
  have h2 : S.tri.faces.inv x ∉ [e, a, b, neg e, c, d] := hy _ (h.shut.flat.coh.hf.right x)
  have h3 : S'.tri.faces.inv x = S.tri.faces.inv x := by
    refine h.shut'.flat.coh.hf.inj ?_
    rw [h.shut'.flat.coh.hf.right, h.fx _ h2, h.shut.flat.coh.hf.right]
  rw [h.shut'.flat.coh.link' (h.shut'.nb x hl'), h.shut.flat.coh.link' (h.shut.nb x hl), h3]

theorem between (h : Diagonals S S' e e' a b c d) : Between S S' c e (neg b) := by
  have hv := h.vecs
  refine ⟨h.shut, h.shut', h.size, h.quad.lt.2.2.2.1, h.quad.vc, h.quad.ve, h.quad'.vb, hv.2.2.1, ?_⟩
  rw [h.shut'.flat.odd b (h.size.symm ▸ h.quad.lt.2.2.1), h.shut.flat.odd b h.quad.lt.2.2.1, hv.2.1]

theorem between_neg (h : Diagonals S S' e e' a b c d) : Between S S' a (neg e) (neg d) := h.opposite.between

theorem between' (h : Diagonals S S' e e' a b c d) : Between S' S d e' (neg c) := h.section_.between

theorem between_neg' (h : Diagonals S S' e e' a b c d) : Between S' S b (neg e') (neg a) := h.section_.between_neg

theorem ne_old (h : Diagonals S S' e e' a b c d) : (c ≠ e ∧ c ≠ neg e) ∧ (a ≠ e ∧ a ≠ neg e) ∧ (b ≠ e ∧ b ≠ neg e) ∧
    d ≠ e ∧ d ≠ neg e := by
  obtain ⟨⟨ea, eb, ee', ec, ed⟩, ⟨ab, ae', ac, ad⟩, ⟨be', bc, bd⟩, ⟨e'c, e'd⟩, cd⟩ := h.quad.ne
  exact ⟨⟨ec.symm, e'c.symm⟩, ⟨ea.symm, ae'⟩, ⟨eb.symm, be'⟩, ed.symm, e'd.symm⟩

/-- Directions have a sector after the flip. -/
theorem sector_flip (h : Diagonals S S' e e' a b c d) (A : Option (Approx T K)) {x : HE} {v : Vec T}
    (hv : LeavesCorner S x v) : ∃ x', (∀ fuel ≥ 3, S'.sector A fuel (S.flipStart e x) .counterclockwise v false =
      some (.ok x')) ∧ LeavesCorner S' x' v ∧ SameCorner S S' e x x' ∧ S'.tri.vertices.Orb (S.flipStart e x) x' := by
  obtain ⟨nc, na, nb, nd⟩ := h.ne_old
  have hprev : ∀ y x, S.tri.vertices.fwd y = x → S.tri.previousAtVertex x = y := by
    rintro y x rfl
    exact h.shut.flat.coh.hv.left y
  unfold flipStart
  by_cases x1 : x = e
  · subst x1
    have hl := h.between.merge_second hv
    rw [if_pos (.inl rfl), hprev c x h.quad.vc]
    exact ⟨c, fun fuel hf => h.between.sector_merged A hl hf, hl, ⟨c, nc.1, nc.2, .inr ⟨.inl rfl, h.quad.vc⟩, .inl rfl⟩,
      .refl _ _⟩
  by_cases x2 : x = neg e
  · subst x2
    have hl := h.between_neg.merge_second hv
    rw [if_pos (.inr rfl), hprev a _ h.quad.va]
    exact ⟨a, fun fuel hf => h.between_neg.sector_merged A hl hf, hl,
      ⟨a, na.1, na.2, .inr ⟨.inr rfl, h.quad.va⟩, .inl rfl⟩, .refl _ _⟩
  rw [if_neg (by tauto)]
  by_cases x3 : x = c
  · subst x3
    have hl := h.between.merge_first hv
    exact ⟨x, fun fuel hf => h.between.sector_merged A hl hf, hl, ⟨x, x1, x2, .inl rfl, .inl rfl⟩, .refl _ _⟩
  by_cases x4 : x = a
  · subst x4
    have hl := h.between_neg.merge_first hv
    exact ⟨x, fun fuel hf => h.between_neg.sector_merged A hl hf, hl, ⟨x, x1, x2, .inl rfl, .inl rfl⟩, .refl _ _⟩
  by_cases x5 : x = d
  · subst x5
    obtain ⟨w, h1, h2, h3⟩ := h.between'.sector_split A hv
    refine ⟨w, h3, h2, ⟨x, x1, x2, .inl rfl, ?_⟩, ?_⟩
    · rcases h1 with h1 | h1
      · exact .inl h1
      · refine .inr ⟨?_, h1 ▸ h.between'.first⟩
        rw [h1]
        exact h.same
    · rcases h1 with h1 | h1
      · rw [h1]; exact .refl _ _
      · rw [h1, ← h.between'.first]; exact .step _ _
  by_cases x6 : x = b
  · subst x6
    obtain ⟨w, h1, h2, h3⟩ := h.between_neg'.sector_split A hv
    refine ⟨w, h3, h2, ⟨x, x1, x2, .inl rfl, ?_⟩, ?_⟩
    · rcases h1 with h1 | h1
      · exact .inl h1
      · refine .inr ⟨?_, h1 ▸ h.between_neg'.first⟩
        rw [h1]
        rcases h.same with hs | hs
        · exact .inr (by rw [hs])
        · exact .inl (by rw [hs, neg_neg'])
    · rcases h1 with h1 | h1
      · rw [h1]; exact .refl _ _
      · rw [h1, ← h.between_neg'.first]; exact .step _ _
  have hm : x ∉ [e, a, b, neg e, c, d] := by simp [*]
  have hfw := h.fwd_away hm hv.1
  have y1 : S.tri.vertices.fwd x ≠ e := fun hx => x3 (h.shut.flat.coh.hv.inj (hx.trans h.quad.vc.symm))
  have y2 : S.tri.vertices.fwd x ≠ neg e := fun hx => x4 (h.shut.flat.coh.hv.inj (hx.trans h.quad.va.symm))
  have hl : LeavesCorner S' x v := by
    refine ⟨h.size.symm ▸ hv.1, ?_, ?_⟩
    · rw [h.vec x x1 x2]; exact hv.2.1
    · unfold Tri.nextAtVertex
      rw [hfw, h.vec _ y1 y2]
      exact hv.2.2
  exact ⟨x, fun fuel hf => sector_here A h.shut'.flat (not_lt.2 hl.2.1) hl.2.2 hf, hl, ⟨x, x1, x2, .inl rfl, .inl rfl⟩,
    .refl _ _⟩

/-- Half edges start at the same vertex before and after the flip. -/
theorem orb_flip (h : Diagonals S S' e e' a b c d) {x y : HE} (hx : x < S.tri.size) (ho : S.tri.vertices.Orb x y) :
    S'.tri.vertices.Orb (S.flipStart e x) (S.flipStart e y) := by
  obtain ⟨nc, na, nb, nd⟩ := h.ne_old
  have hprev : ∀ y x, S.tri.vertices.fwd y = x → S.tri.previousAtVertex x = y := by
    rintro y x rfl
    exact h.shut.flat.coh.hv.left y
  have pe : S.flipStart e e = c := by unfold flipStart; rw [if_pos (.inl rfl), hprev c e h.quad.vc]
  have pe' : S.flipStart e (neg e) = a := by unfold flipStart; rw [if_pos (.inr rfl), hprev a _ h.quad.va]
  have po : ∀ {z}, z ≠ e → z ≠ neg e → S.flipStart e z = z := fun h1 h2 => if_neg (by tauto)
  have key : ∀ {y z}, S.tri.vertices.fwd y = z → y ≠ c → y ≠ a → S.flipStart e z = z := by
    intro y z hz h1 h2
    refine po (fun hx => ?_) (fun hx => ?_)
    · exact h1 (h.shut.flat.coh.hv.inj ((hz.trans hx).trans h.quad.vc.symm))
    · exact h2 (h.shut.flat.coh.hv.inj ((hz.trans hx).trans h.quad.va.symm))
  obtain ⟨⟨ea, eb, ee', ec, ed⟩, ⟨ab, ae', ac, ad⟩, ⟨be', bc, bd⟩, ⟨e'c, e'd⟩, cd⟩ := h.quad.ne
  have step : ∀ z < S.tri.size, S'.tri.vertices.Orb (S.flipStart e z) (S.flipStart e (S.tri.vertices.fwd z)) := by
    intro z hz
    by_cases z1 : z = e
    · subst z1
      rw [pe, h.quad.ve, key h.quad.ve ec ea, ← h.between.both]
      exact .step _ _
    by_cases z2 : z = neg e
    · subst z2
      rw [pe', h.quad.ve', key h.quad.ve' e'c ae'.symm, ← h.between_neg.both]
      exact .step _ _
    rw [po z1 z2]
    by_cases z3 : z = c
    · subst z3
      rw [h.quad.vc, pe]
      exact .refl _ _
    by_cases z4 : z = a
    · subst z4
      rw [h.quad.va, pe']
      exact .refl _ _
    rw [key rfl z3 z4]
    by_cases z5 : z = d
    · subst z5
      refine (Perm.Orb.step _ z).trans ?_
      rw [h.between'.first, h.quad.vd, ← h.between'.second]
      exact .step _ _
    by_cases z6 : z = b
    · subst z6
      refine (Perm.Orb.step _ z).trans ?_
      rw [h.between_neg'.first, h.quad.vb, ← h.between_neg'.second]
      exact .step _ _
    rw [← h.fwd_away (by simp [*]) hz]
    exact .step _ _
  obtain ⟨n, rfl⟩ := ho
  clear key
  induction n generalizing x with
  | zero => exact .refl _ _
  | succ n ih => exact (step x hx).trans (ih (h.shut.flat.coh.hv.fwd_lt.2 hx))

/-- The image of a segment under a flip. -/
theorem flipSegment_eq (h : Diagonals S S' e e' a b c d) (A : Option (Approx T K)) (dbg : Bool) {s : Conn T}
    (hs : IsConn S s) : ∃ s', (∀ fuel ≥ 3, flipSegment A dbg fuel S S' e s = some (.ok s')) ∧ IsConn S' s' ∧
      SameConn S S' e s s' ∧ s'.chain = s.chain ∧ s'.base = s.base ∧ S'.tri.vertices.Orb (S.flipStart e s.source) s'.source ∧
      S'.tri.vertices.Orb (S.flipStart e s.target) s'.target := by
  obtain ⟨x, x1, x2, x3, x4⟩ := h.sector_flip A hs.1
  obtain ⟨y, y1, y2, y3, y4⟩ := h.sector_flip A hs.2
  refine ⟨⟨⟨x, y, s.chain⟩, s.base⟩, fun fuel hf => ?_, ⟨x2, y2⟩, ⟨rfl, x3, y3⟩, rfl, rfl, x4, y4⟩
  have hmake : Conn.make dbg x y s.chain s.base = .ok ⟨⟨x, y, s.chain⟩, s.base⟩ := by
    unfold Conn.make Saddle.make
    rw [if_neg]
    · rfl
    · rw [Bool.and_eq_true]
      rintro ⟨-, h0⟩
      have h1 : s.vector = 0 := by
        unfold Conn.vector
        rw [chainVector_congr s.base (c' := fun _ => 0), chainVector_zero]
        intro i hi
        simpa using List.all_eq_true.1 h0 i (List.mem_range.2 hi)
      have h2 := hs.1.2.2
      rw [h1, cross_zero_right] at h2
      exact lt_irrefl _ h2
  unfold flipSegment
  simp only [x1 fuel hf, y1 fuel hf, Option.bind_some, Option.map_some]
  exact congrArg some hmake

end Diagonals

/-- The loop over the segments of a path. -/
theorem connLoop_image (dbg : Bool) {S S' : FlatTri T} {segment : ℕ → Conn T → Option (Except Err (Conn T))} {R : Conn T → Conn T → Prop}
    (hR : ∀ s s' t t', R s s' → R t t' → S.connected s.toSaddle t.toSaddle = true →
      S'.connected s'.toSaddle t'.toSaddle = true) (path : List (Conn T)) :
    (∀ s ∈ path, ∃ s', (∀ fuel ≥ 3, segment fuel s = some (.ok s')) ∧ R s s') →
    ∀ image : List (Conn T), path.IsChain (fun s t => S.connected s.toSaddle t.toSaddle = true) →
      (∀ l ∈ image.getLast?, ∃ s, R s l ∧ ∀ t ∈ path.head?, S.connected s.toSaddle t.toSaddle = true) →
      image.IsChain (fun s t => S'.connected s.toSaddle t.toSaddle = true) →
      ∃ path', (∀ fuel ≥ 3, connLoop dbg S' (segment fuel) image path = some (.ok (image ++ path'))) ∧
        List.Forall₂ R path path' ∧ (image ++ path').IsChain (fun s t => S'.connected s.toSaddle t.toSaddle = true) := by
  induction path with
  | nil => intro _ image _ _ hi; exact ⟨[], fun _ _ => by simp [connLoop], .nil, by simpa using hi⟩
  | cons s path ih =>
    intro hs image hc hl hi
    obtain ⟨s', h1, h2⟩ := hs s (by simp)
    have hcon : ∀ l ∈ image.getLast?, S'.connected l.toSaddle s'.toSaddle = true := by
      intro l hl'
      obtain ⟨r, h3, h4⟩ := hl l hl'
      exact hR _ _ _ _ h3 h2 (h4 s (by simp))
    have hpush : connPush dbg S' image s' = .ok (image ++ [s']) := by
      unfold connPush
      cases hx : image.getLast? with
      | none => rfl
      | some l => simp [hcon l (by rw [hx]; rfl)]
    have hi' : (image ++ [s']).IsChain (fun s t => S'.connected s.toSaddle t.toSaddle = true) := by
      rw [List.isChain_append]
      refine ⟨hi, by simp, fun x hx y hy => ?_⟩
      simp at hy
      subst hy
      exact hcon x hx
    obtain ⟨path', h3, h4, h5⟩ := ih (fun t ht => hs t (by simp [ht])) (image ++ [s']) hc.tail (by
      intro l hl'
      rw [List.getLast?_concat] at hl'
      cases hl'
      refine ⟨s, h2, fun t ht => ?_⟩
      cases path with
      | nil => cases ht
      | cons t' path =>
        cases ht
        rw [List.isChain_cons_cons] at hc
        exact hc.1) hi'
    refine ⟨s' :: path', fun fuel hf => ?_, .cons h2 h4, by simpa using h5⟩
    have := h3 fuel hf
    simp only [connLoop, h1 fuel hf, hpush]
    rw [this]
    simp

theorem conns_chain {S : FlatTri T} {path : List (Conn T)} :
    Spec.Connected S (path.map Conn.toSaddle) ↔ path.IsChain (fun s t => S.connected s.toSaddle t.toSaddle = true) := by
  rw [connected_chain, List.isChain_map]

namespace Diagonals

variable {S S' : FlatTri T} {e e' a b c d : HE}

/-- The image of a path under a flip. -/
theorem flipPath_eq (h : Diagonals S S' e e' a b c d) (A : Option (Approx T K)) (dbg : Bool) {path : List (Conn T)}
    (hs : ∀ s ∈ path, IsConn S s) (hc : Spec.Connected S (path.map Conn.toSaddle)) :
    ∃ path', (∀ fuel ≥ 3, flipPath A dbg fuel S S' e path = some (.ok path')) ∧
      List.Forall₂ (fun s s' => SameConn S S' e s s' ∧ s'.chain = s.chain ∧ s'.base = s.base) path path' ∧
      (∀ s ∈ path', IsConn S' s) ∧ Spec.Connected S' (path'.map Conn.toSaddle) := by
  have key := connLoop_image dbg (S := S) (S' := S') (segment := fun fuel => flipSegment A dbg fuel S S' e)
    (R := fun s s' => (IsConn S s ∧ IsConn S' s' ∧ S'.tri.vertices.Orb (S.flipStart e s.source) s'.source ∧
      S'.tri.vertices.Orb (S.flipStart e s.target) s'.target) ∧ SameConn S S' e s s' ∧ s'.chain = s.chain ∧ s'.base = s.base)
    ?hR path ?hS [] (conns_chain.1 hc) (by simp) (by simp)
  · obtain ⟨path', h1, h2, h3⟩ := key
    refine ⟨path', h1, h2.imp fun _ _ hx => hx.2, fun s' hs' => ?_, conns_chain.2 h3⟩
    obtain ⟨i, hi, rfl⟩ := List.getElem_of_mem hs'
    exact (h2.get (i := i) (by rw [h2.length_eq]; exact hi) hi).1.2.1
  case hR =>
    rintro s s' t t' ⟨⟨s1, s2, s3, s4⟩, -⟩ ⟨⟨t1, t2, t3, t4⟩, -⟩ hst
    rw [h.shut.connected_iff s1.2.1 t1.1.1] at hst
    rw [h.shut'.connected_iff s2.2.1 t2.1.1]
    exact ((s4.symm h.shut'.flat.coh.hv).trans (h.orb_flip s1.2.1 hst)).trans t3
  case hS =>
    intro s hsp
    obtain ⟨s', g1, g2, g3, g4, g5, g6, g7⟩ := h.flipSegment_eq A dbg (hs s hsp)
    exact ⟨s', g1, ⟨hs s hsp, g2, g6, g7⟩, g3, g4, g5⟩

/-- On one surface, a vector and the half edge next to it determine the corner. -/
theorem corner_unique (h : Diagonals S S' e e' a b c d) {x x' x'' : HE} {v : Vec T} (h1 : LeavesCorner S x v)
    (h2 : LeavesCorner S x'' v) (h3 : SameCorner S S' e x x') (h4 : SameCorner S' S e x' x'') : x'' = x := by
  obtain ⟨y, y1, y2, y3, y4⟩ := h3
  obtain ⟨z, z1, z2, z3, z4⟩ := h4
  have hz : z = y := by
    rcases y4 with y4 | ⟨y4, y5⟩ <;> rcases z3 with z3 | ⟨z3, z5⟩
    · rw [← z3, y4]
    · subst y4; rcases z3 with z3 | z3 <;> contradiction
    · subst z3; rcases y4 with y4 | y4 <;> contradiction
    · exact h.shut'.flat.coh.hv.inj (z5.trans y5.symm)
  subst hz
  rcases y3 with rfl | ⟨y3, y5⟩ <;> rcases z4 with rfl | ⟨z4, z5⟩
  · rfl
  · have := h1.2.2
    rw [z5] at this
    exact absurd h2.2.1 (not_le.2 this)
  · have := h2.2.2
    rw [y5] at this
    exact absurd h1.2.1 (not_le.2 this)
  · rw [← y5, ← z5]

end Diagonals

end Verif
