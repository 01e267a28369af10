import Verif.Lemmas.Point

/-!
# Lemmas about the methods of points
-/

set_option linter.unusedSectionVars false

namespace Verif

open Spec Tri

variable {T : Type} [CommRing T] [LinearOrder T] [IsStrictOrderedRing T]

namespace FlatTri

variable {S : FlatTri T}

/-! ### Vertices -/

theorem Shut.source (h : S.Shut) {e : HE} (he : e < S.tri.size) :
    ∃ v, S.tri.source e = some v ∧ ∀ y, y ∈ v ↔ S.tri.vertices.Orb e y := by
  obtain ⟨w, hw, hew⟩ := h.flat.ver.cover e he
  unfold Tri.source
  cases hf : S.tri.vertexes.find? (fun v => e ∈ v) with
  | none => exact absurd hew (by simpa using List.find?_eq_none.1 hf w hw)
  | some v =>
    refine ⟨v, rfl, fun y => ?_⟩
    obtain ⟨x, hx, hv⟩ := h.flat.ver.orbit v (List.mem_of_find?_eq_some hf)
    have hev : e ∈ v := by simpa using List.find?_some hf
    have hxe := (hv e).1 hev
    rw [hv]
    exact ⟨fun hy => (hxe.symm h.flat.coh.hv).trans hy, fun hy => hxe.trans hy⟩

theorem Shut.sameVertex (h : S.Shut) {x y : HE} {v w : Finset HE} (hv : ∀ z, z ∈ v ↔ S.tri.vertices.Orb x z)
    (hw : ∀ z, z ∈ w ↔ S.tri.vertices.Orb y z) : sameVertex v w = true ↔ S.tri.vertices.Orb x y := by
  unfold FlatTri.sameVertex
  rw [decide_eq_true_iff]
  constructor
  · intro hm
    have hx : x ∈ v := (hv x).2 (Perm.Orb.refl _ _)
    obtain ⟨m, hmv⟩ := Finset.min_of_mem hx
    have h1 := (hv m).1 (Finset.mem_of_min hmv)
    rw [hm] at hmv
    have h2 := (hw m).1 (Finset.mem_of_min hmv)
    exact h1.trans (h2.symm h.flat.coh.hv)
  · intro hxy
    have : v = w := by
      ext z
      rw [hv, hw]
      exact ⟨fun hz => (hxy.symm h.flat.coh.hv).trans hz, fun hz => hxy.trans hz⟩
    rw [this]

theorem Shut.isSource (h : S.Shut) {x y : HE} (hy : y < S.tri.size) {v : Finset HE}
    (hv : ∀ z, z ∈ v ↔ S.tri.vertices.Orb x z) : S.isSource v y = true ↔ S.tri.vertices.Orb x y := by
  obtain ⟨w, h1, h2⟩ := h.source hy
  unfold FlatTri.isSource
  rw [h1]
  exact h.sameVertex hv h2

/-! ### Normalization -/

theorem Shut.rotated_next (h : S.Shut) {p : Point T} (hp : p.face < S.tri.size) :
    S.rotated p (S.tri.faces.fwd p.face) = (p.b, p.c, p.a) := by
  unfold rotated Tri.nextInFace
  rw [if_neg (h.ne hp).1.symm, if_pos rfl]

theorem Shut.rotated_prev (h : S.Shut) {p : Point T} (hp : p.face < S.tri.size) :
    S.rotated p (S.tri.faces.fwd (S.tri.faces.fwd p.face)) = (p.c, p.a, p.b) := by
  unfold rotated Tri.nextInFace
  rw [if_neg (h.ne hp).2.1.symm, if_neg (h.ne hp).2.2.1.symm]

theorem rotated_self {p : Point T} : S.rotated p p.face = (p.a, p.b, p.c) := if_pos rfl

/-- Rotated weights are for the same position. -/
theorem Shut.rotated (h : S.Shut) {p : Point T} (hp : p.face < S.tri.size) {e : HE}
    (he : e = p.face ∨ e = S.tri.faces.fwd p.face ∨ e = S.tri.faces.fwd (S.tri.faces.fwd p.face)) :
    SamePosition S p ⟨e, (S.rotated p e).1, (S.rotated p e).2.1, (S.rotated p e).2.2⟩ := by
  rcases he with rfl | rfl | rfl
  · rw [rotated_self]
    exact .refl _
  · rw [h.rotated_next hp]
    exact .rotate
  · rw [h.rotated_prev hp]
    exact SamePosition.rotate2 h

theorem Shut.normalize (h : S.Shut) {p : Point T} (hp : Describes S p) :
    ∃ q, S.normalize p = .ok q ∧ Normal S q ∧ SamePosition S p q := by
  obtain ⟨e, a, b, c⟩ := p
  have key : ∀ q, S.normalize ⟨e, a, b, c⟩ = .ok q → SamePosition S ⟨e, a, b, c⟩ q →
      (0 < q.a ∧ 0 < q.b ∧ 0 < q.c ∨ q.c = 0 ∧ 0 < q.a) →
      ∃ q, S.normalize ⟨e, a, b, c⟩ = .ok q ∧ Normal S q ∧ SamePosition S ⟨e, a, b, c⟩ q := fun q h0 h1 h2 =>
    ⟨q, h0, ⟨(h1.describes h).1 hp, h2⟩, h1⟩
  obtain ⟨h1, ⟨h2, h3, h4⟩, h5⟩ := hp
  simp only at h1 h2 h3 h4 h5
  have start : S.normalize ⟨e, a, b, c⟩ =
      if a > 0 ∧ b > 0 ∧ c > 0 then .ok ⟨e, a, b, c⟩ else S.normalizeLoop 3 ⟨e, a, b, c⟩ := by
    unfold FlatTri.normalize
    simp only
    rw [if_neg h5.ne', if_neg (by rw [not_or, not_or]; exact ⟨h2.not_gt, h3.not_gt, h4.not_gt⟩), if_neg h5.not_gt]
  have stop : ∀ (n : ℕ) (q : Point T), q.c = 0 → q.a ≠ 0 → S.normalizeLoop (n + 1) q = .ok q := by
    intro n q h1 h2
    unfold normalizeLoop
    rw [if_neg (by tauto)]
  have move : ∀ (n : ℕ) (q : Point T), q.face < S.tri.size → (q.c ≠ 0 ∨ q.a = 0) →
      S.normalizeLoop (n + 1) q = S.normalizeLoop n ⟨S.tri.faces.fwd q.face, q.b, q.c, q.a⟩ := by
    intro n q h1 h2
    conv_lhs => unfold normalizeLoop
    rw [if_pos h2]
    show S.normalizeLoop n ⟨S.tri.faces.fwd q.face, _, _, _⟩ = _
    unfold Tri.nextInFace
    rw [h.rotated_next h1]
  rcases h2.eq_or_lt with ha | ha
  · have s1 := start.trans (if_neg fun hx => hx.1.ne ha)
    rw [move 2 _ h1 (.inr ha.symm)] at s1
    rcases h3.eq_or_lt with hb | hb
    · rw [move 1 _ (h.next_lt h1) (.inr hb.symm), stop 0 _ hb.symm (by simp only; intro hx; linarith)] at s1
      exact key _ s1 (SamePosition.rotate2 h) (.inr ⟨hb.symm, by simp only; linarith⟩)
    · rw [stop 1 _ ha.symm hb.ne'] at s1
      exact key _ s1 .rotate (.inr ⟨ha.symm, hb⟩)
  · rcases h4.eq_or_lt with hc | hc
    · have s1 := start.trans (if_neg fun hx => hx.2.2.ne hc)
      rw [stop 2 _ hc.symm ha.ne'] at s1
      exact key _ s1 (.refl _) (.inr ⟨hc.symm, ha⟩)
    · rcases h3.eq_or_lt with hb | hb
      · have s1 := start.trans (if_neg fun hx => hx.2.1.ne hb)
        rw [move 2 _ h1 (.inl hc.ne'), move 1 _ (h.next_lt h1) (.inl ha.ne'), stop 0 _ hb.symm hc.ne'] at s1
        exact key _ s1 (SamePosition.rotate2 h) (.inr ⟨hb.symm, hc⟩)
      · have s1 := start.trans (if_pos ⟨ha, hb, hc⟩)
        exact key _ s1 (.refl _) (.inl ⟨ha, hb, hc⟩)

theorem Shut.point (h : S.Shut) (dbg : Bool) {e : HE} {a b c : T} (hp : Describes S ⟨e, a, b, c⟩) :
    ∃ q, S.point dbg e a b c = .ok q ∧ Normal S q ∧ SamePosition S ⟨e, a, b, c⟩ q := by
  unfold FlatTri.point
  rw [if_neg (not_le.2 hp.lt)]
  exact h.normalize hp

/-! ### Vertices and edges of points -/

theorem Shut.vertexOf_some (h : S.Shut) {p : Point T} (hp : Normal S p) (hb : p.b = 0) :
    ∃ v, S.vertexOf p = some v ∧ ∀ y, y ∈ v ↔ S.tri.vertices.Orb p.face y := by
  have hc : p.c = 0 := by
    rcases hp.normal with hx | hx
    · exact absurd hb hx.2.1.ne'
    · exact hx.1
  unfold vertexOf
  rw [if_neg (by tauto)]
  exact h.source hp.lt

theorem vertexOf_none {p : Point T} (hb : p.b ≠ 0) : S.vertexOf p = none := if_pos (.inl hb)

theorem Normal.b_ne {p : Point T} (hp : Normal S p) (hc : p.c ≠ 0) : p.b ≠ 0 := (hp.inner hc).2.1.ne'

theorem ofHalfEdge_eq {x y : HE} : Edge.ofHalfEdge x = Edge.ofHalfEdge y ↔ x = y ∨ x = neg y := by
  unfold Edge.ofHalfEdge
  rw [Edge.mk.injEq]
  have hx := neg_def x
  have hy := neg_def y
  split_ifs at * <;> omega

theorem positive_ofHalfEdge (x : HE) : (Edge.ofHalfEdge x).positive = x ∨ (Edge.ofHalfEdge x).positive = neg x := by
  unfold Edge.ofHalfEdge Edge.positive
  split_ifs
  · exact .inl rfl
  · exact .inr rfl

/-- A point is on an edge. -/
theorem Shut.pointIsOn (h : S.Shut) {p : Point T} (hp : Normal S p) {x : HE} (hx : x < S.tri.size) :
    S.pointIsOn p (Edge.ofHalfEdge x) = true ↔
      p.b = 0 ∧ (S.tri.vertices.Orb p.face x ∨ S.tri.vertices.Orb p.face (neg x)) ∨
      p.b ≠ 0 ∧ p.c = 0 ∧ (p.face = x ∨ p.face = neg x) := by
  unfold FlatTri.pointIsOn
  by_cases hb : p.b = 0
  · obtain ⟨v, h1, h2⟩ := h.vertexOf_some hp hb
    simp only [h1, hb, Bool.or_eq_true, ne_eq, not_true, false_and, or_false, true_and]
    have hx' := h.neg_lt hx
    unfold Edge.negative Edge.positive
    rcases positive_ofHalfEdge x with hpos | hpos <;> unfold Edge.positive at hpos <;> rw [hpos]
    · rw [h.isSource hx h2, h.isSource hx' h2]
    · rw [neg_neg', h.isSource hx h2, h.isSource hx' h2]
      exact Or.comm
  · rw [vertexOf_none hb]
    simp only [decide_eq_true_eq, hb, false_and, false_or, ne_eq, not_false_eq_true, true_and]
    unfold edgeOf
    by_cases hc : p.c = 0
    · simp only [hc, ne_eq, not_true, if_false, Option.some.injEq, ofHalfEdge_eq, true_and]
    · simp [hc]

/-- A point is in a face if it is a corner, on a side, or in the interior. -/
theorem Shut.pointIsIn (h : S.Shut) {p : Point T} {e : HE} :
    S.pointIsIn p e = true ↔ ∃ x, (x = e ∨ x = S.tri.faces.fwd e ∨ x = S.tri.faces.fwd (S.tri.faces.fwd e)) ∧
      (p.face = x ∨ S.pointIsOn p (Edge.ofHalfEdge x) = true) := by
  unfold FlatTri.pointIsIn sides Tri.nextInFace Tri.previousInFace
  rw [h.prev]
  simp only [List.any_cons, List.any_nil, Bool.or_eq_true, decide_eq_true_eq, Bool.or_false]
  constructor
  · rintro ((h | h | h) | (h | h | h))
    · exact ⟨_, .inl rfl, .inl h⟩
    · exact ⟨_, .inr (.inl rfl), .inl h⟩
    · exact ⟨_, .inr (.inr rfl), .inl h⟩
    · exact ⟨_, .inl rfl, .inr h⟩
    · exact ⟨_, .inr (.inl rfl), .inr h⟩
    · exact ⟨_, .inr (.inr rfl), .inr h⟩
  · rintro ⟨x, (rfl | rfl | rfl), h | h⟩ <;> tauto

/-- The half edge is a side of the face of `e`. -/
def Side (S : FlatTri T) (e x : HE) : Prop := x = e ∨ x = S.tri.faces.fwd e ∨ x = S.tri.faces.fwd (S.tri.faces.fwd e)

theorem Shut.side_symm (h : S.Shut) {e x : HE} (hx : S.Side e x) : S.Side x e := by
  rcases hx with rfl | rfl | rfl
  · exact .inl rfl
  · exact .inr (.inr (h.next3 e).symm)
  · exact .inr (.inl (h.next3 e).symm)

theorem Shut.side_lt (h : S.Shut) {e x : HE} (he : e < S.tri.size) (hx : S.Side e x) : x < S.tri.size := by
  rcases hx with rfl | rfl | rfl
  · exact he
  · exact h.next_lt he
  · exact h.next_lt (h.next_lt he)

theorem Shut.side_next (h : S.Shut) {e x : HE} (hx : S.Side e x) : S.Side e (S.tri.faces.fwd x) := by
  rcases hx with rfl | rfl | rfl
  · exact .inr (.inl rfl)
  · exact .inr (.inr rfl)
  · exact .inl (h.next3 e)

theorem Shut.mem_sides (h : S.Shut) {e x : HE} : x ∈ S.sides e ↔ S.Side e x := by
  unfold sides Side Tri.nextInFace Tri.previousInFace
  rw [h.prev]
  simp

theorem key_cases {q : Point T} (hq : Describes S q) :
    (∃ x, S.Side q.face x ∧ S.key q = .vertex {z | S.tri.vertices.Orb x z}) ∨
    (∃ x a b s, S.Side q.face x ∧ S.key q = .edge (weights2 x a b s)) ∨
    S.key q = .inner (weights3 q.face (S.tri.faces.fwd q.face) (S.tri.faces.fwd (S.tri.faces.fwd q.face)) q.a q.b q.c
      (q.a + q.b + q.c)) := by
  unfold key
  simp only
  split_ifs
  · exact .inl ⟨_, .inr (.inr rfl), rfl⟩
  · exact .inl ⟨_, .inr (.inl rfl), rfl⟩
  · exact .inr (.inl ⟨_, _, _, _, .inr (.inl rfl), rfl⟩)
  · exact .inl ⟨_, .inl rfl, rfl⟩
  · exact .inr (.inl ⟨_, _, _, _, .inr (.inr rfl), rfl⟩)
  · exact .inr (.inl ⟨_, _, _, _, .inl rfl, rfl⟩)
  · exact .inr (.inr rfl)

/-- A point is in each face with respect to which it can be described. -/
theorem Shut.in_of_same (h : S.Shut) {p q : Point T} (hp : Normal S p) (hpq : SamePosition S p q) :
    S.pointIsIn p q.face = true := by
  have hq := (hpq.describes h).1 hp.toDescribes
  have hk := hpq.key h hp.toDescribes
  rw [h.pointIsIn]
  by_cases hpc : p.c = 0
  · by_cases hpb : p.b = 0
    · rw [(hp.vertex h hpb).2] at hk
      rcases key_cases hq with ⟨x, hx, hkq⟩ | ⟨x, a, b, s, hx, hkq⟩ | hkq
      · rw [hkq] at hk
        injection hk with hk
        have : x ∈ {z | S.tri.vertices.Orb x z} := Perm.Orb.refl _ _
        rw [← hk] at this
        exact ⟨x, hx, .inr ((h.pointIsOn hp (h.side_lt hq.lt hx)).2 (.inl ⟨hpb, .inl this⟩))⟩
      · rw [hkq] at hk; cases hk
      · rw [hkq] at hk; cases hk
    · rw [hp.edge hpb hpc] at hk
      rcases key_cases hq with ⟨x, hx, hkq⟩ | ⟨x, a, b, s, hx, hkq⟩ | hkq
      · rw [hkq] at hk; cases hk
      · rw [hkq] at hk
        injection hk with hk
        have ha : p.a ≠ 0 := (hp.normal.resolve_left fun hx => hx.2.2.ne' hpc).2.ne'
        have : weights2 x a b s p.face ≠ 0 := by
          rw [← hk, weights2_self]
          exact frac_ne ha hp.pos.ne'
        exact ⟨x, hx, .inr ((h.pointIsOn hp (h.side_lt hq.lt hx)).2 (.inr ⟨hpb, hpc, weights2_support this⟩))⟩
      · rw [hkq] at hk; cases hk
  · obtain ⟨ha, hb, hc, hkp⟩ := hp.inner hpc
    rw [hkp] at hk
    rcases key_cases hq with ⟨x, hx, hkq⟩ | ⟨x, a, b, s, hx, hkq⟩ | hkq
    · rw [hkq] at hk; cases hk
    · rw [hkq] at hk; cases hk
    · rw [hkq] at hk
      injection hk with hk
      have : weights3 q.face (S.tri.faces.fwd q.face) (S.tri.faces.fwd (S.tri.faces.fwd q.face)) q.a q.b q.c
          (q.a + q.b + q.c) p.face ≠ 0 := by
        rw [← hk]
        unfold weights3
        rw [if_pos rfl]
        exact frac_ne ha.ne' hp.pos.ne'
      exact ⟨p.face, weights3_support this, .inl rfl⟩

/-- `coordinates` describes the position with respect to the face. -/
theorem Shut.coordinates (h : S.Shut) {p : Point T} (hp : Normal S p) {e : HE} (he : e < S.tri.size)
    (hin : S.pointIsIn p e = true) :
    ∃ r, S.coordinates p e = .ok r ∧ SamePosition S p ⟨e, r.1, r.2.1, r.2.2⟩ := by
  unfold FlatTri.coordinates
  rw [hin]
  simp only [Bool.not_true, Bool.false_eq_true, if_false]
  by_cases hs : S.Side e p.face
  · rw [if_pos (by simpa using h.mem_sides.2 hs)]
    exact ⟨_, rfl, h.rotated hp.lt (h.side_symm hs)⟩
  · rw [if_neg (by simpa using fun hx => hs (h.mem_sides.1 hx))]
    have across : ∀ x r, S.Side e x → S.acrossSide p e x = some r → SamePosition S p ⟨e, r.1, r.2.1, r.2.2⟩ := by
      intro x r hx hr
      have hlt := h.side_lt he hx
      unfold acrossSide at hr
      split_ifs at hr with h1 h2
      · injection hr with hr
        subst hr
        refine SamePosition.trans ?_ (h.rotated (p := ⟨x, p.b, p.a, p.c⟩) hlt (h.side_symm hx))
        obtain ⟨f, a, b, c⟩ := p
        simp only at h1 ⊢
        obtain ⟨rfl, rfl⟩ := h1
        have := SamePosition.glue (S := S) (e := neg x) (a := a) (b := b)
        rwa [neg_neg'] at this
      · injection hr with hr
        subst hr
        refine SamePosition.trans ?_ (h.rotated (p := ⟨x, p.a, p.b, p.c⟩) hlt (h.side_symm hx))
        obtain ⟨f, a, b, c⟩ := p
        simp only at h2 ⊢
        obtain ⟨h2, rfl, rfl⟩ := h2
        have g1 : SamePosition S ⟨f, a, 0, 0⟩ ⟨S.tri.faces.fwd (S.tri.faces.fwd f), 0, a, 0⟩ := SamePosition.rotate2 h
        unfold Tri.previousInFace at h2
        rw [h.prev] at h2
        rw [h2] at g1
        have g2 := SamePosition.glue (S := S) (e := neg x) (a := 0) (b := a)
        rw [neg_neg'] at g2
        exact g1.trans g2
    cases hf : (S.sides e).findSome? (S.acrossSide p e) with
    | some r =>
      obtain ⟨x, hx, hr⟩ := List.exists_of_findSome?_eq_some hf
      exact ⟨r, rfl, across x r (h.mem_sides.1 hx) hr⟩
    | none =>
      rw [List.findSome?_eq_none_iff] at hf
      obtain ⟨x, hx, hpx⟩ := h.pointIsIn.1 hin
      have hpx := hpx.resolve_left fun hc => hs (hc ▸ hx)
      rcases (h.pointIsOn hp (h.side_lt he hx)).1 hpx with ⟨hb, ho⟩ | ⟨hb, hc, hx'⟩
      · obtain ⟨v, hv, hvo⟩ := h.vertexOf_some hp hb
        simp only [hv]
        have hex : ∃ y, S.Side e y ∧ S.tri.vertices.Orb p.face y := by
          rcases ho with ho | ho
          · exact ⟨x, hx, ho⟩
          · have hlt := h.side_lt he hx
            refine ⟨_, h.side_next hx, ho.trans ?_⟩
            have := h.orb_across (h.neg_lt hlt)
            rw [neg_neg'] at this
            exact this.symm h.flat.coh.hv
        cases hg : (S.sides e).find? (S.isSource v) with
        | none =>
          obtain ⟨y, hy, hyo⟩ := hex
          have := List.find?_eq_none.1 hg y (h.mem_sides.2 hy)
          exact absurd ((h.isSource (h.side_lt he hy) hvo).2 hyo) this
        | some y =>
          have hy := h.mem_sides.1 (List.mem_of_find?_eq_some hg)
          have hlt := h.side_lt he hy
          have hyo := (h.isSource hlt hvo).1 (List.find?_some hg)
          refine ⟨_, rfl, ?_⟩
          refine ((hp.vertex h hb).1.trans (SamePosition.vertex h hp.lt hyo)).trans ?_
          exact h.rotated (p := ⟨y, 1, 0, 0⟩) hlt (h.side_symm hy)
      · have h1 : p.face = neg x := hx'.resolve_left fun hc => hs (hc ▸ hx)
        have := hf x (h.mem_sides.2 hx)
        unfold acrossSide at this
        rw [if_pos ⟨h1, hc⟩] at this
        cases this

theorem Shut.in_iff (h : S.Shut) {p : Point T} (hp : Normal S p) {e : HE} (he : e < S.tri.size) :
    S.pointIsIn p e = true ↔ ∃ a b c, SamePosition S p ⟨e, a, b, c⟩ := by
  constructor
  · intro hin
    obtain ⟨r, -, hr⟩ := h.coordinates hp he hin
    exact ⟨_, _, _, hr⟩
  · rintro ⟨a, b, c, hs⟩
    exact h.in_of_same hp hs

/-- `==` -/
theorem Shut.pointEq (h : S.Shut) {p q : Point T} (hp : Normal S p) (hq : Normal S q) :
    ∃ r, S.pointEq p q = .ok r ∧ (r = true ↔ SamePosition S p q) := by
  unfold FlatTri.pointEq
  cases hin : S.pointIsIn q p.face with
  | false =>
    refine ⟨false, rfl, ?_⟩
    simp only [Bool.false_eq_true, false_iff]
    intro hs
    have := h.in_of_same hq hs.symm
    rw [hin] at this
    cases this
  | true =>
    simp only [Bool.not_true, Bool.false_eq_true, if_false]
    by_cases hb : p.b = 0
    · obtain ⟨v, hv, hvo⟩ := h.vertexOf_some hp hb
      rw [hv]
      simp only
      have kp := (hp.vertex h hb).2
      by_cases hb' : q.b = 0
      · obtain ⟨w, hw, hwo⟩ := h.vertexOf_some hq hb'
        rw [hw]
        refine ⟨_, rfl, ?_⟩
        rw [h.sameVertex hvo hwo, samePosition_iff h hp.toDescribes hq.toDescribes, kp, (hq.vertex h hb').2]
        constructor
        · intro ho
          rw [h.orb_iff ho]
        · intro hk
          injection hk with hk
          have : q.face ∈ {z | S.tri.vertices.Orb q.face z} := Perm.Orb.refl _ _
          rwa [← hk] at this
      · rw [vertexOf_none hb']
        refine ⟨false, rfl, ?_⟩
        simp only [Bool.false_eq_true, false_iff]
        intro hs
        have hk := hs.key h hp.toDescribes
        rw [kp] at hk
        by_cases hc' : q.c = 0
        · rw [hq.edge hb' hc'] at hk; cases hk
        · rw [(hq.inner hc').2.2.2] at hk; cases hk
    · rw [vertexOf_none hb]
      obtain ⟨⟨a, b, c⟩, hr, hs⟩ := h.coordinates hq hp.lt hin
      simp only [hr]
      refine ⟨_, rfl, ?_⟩
      simp only [Bool.and_eq_true, decide_eq_true_eq]
      have hd := (hs.describes h).1 hq.toDescribes
      have hm := hd.pos
      have hl := hp.pos
      have hiff : SamePosition S p q ↔ SamePosition S p ⟨p.face, a, b, c⟩ :=
        ⟨fun hx => hx.trans hs, fun hx => hx.trans hs.symm⟩
      rw [hiff]
      simp only at hm hs hd
      constructor
      · rintro ⟨⟨k1, k2⟩, k3⟩
        exact .proportional hm hl k1.symm k2.symm k3.symm
      · intro hx
        have hk := hx.key h hp.toDescribes
        by_cases hc : p.c = 0
        · have ha : p.a ≠ 0 := (hp.normal.resolve_left fun hx => hx.2.2.ne' hc).2.ne'
          rw [hp.edge hb hc] at hk
          obtain ⟨n1, n2, n3, n4, n5, n6⟩ := h.ne hp.lt
          have hA : frac p.a (p.a + p.b + p.c) ≠ 0 := frac_ne ha hl.ne'
          have hB : frac p.b (p.a + p.b + p.c) ≠ 0 := frac_ne hb hl.ne'
          unfold key at hk
          simp only at hk
          split_ifs at hk with c1 c2 c3 c4 c5 c6
          all_goals first | (cases hk; done) | skip
          all_goals injection hk with hk
          all_goals have k1 := congrFun hk p.face
          all_goals have k2 := congrFun hk (neg p.face)
          all_goals rw [weights2_self] at k1
          all_goals rw [weights2_other] at k2
          · exfalso
            have := weights2_support (k1 ▸ hA)
            rcases this with hx | hx
            · exact n1 hx
            · exact n5 (neg_eq_comm'.2 hx)
          · exfalso
            have := weights2_support (k1 ▸ hA)
            rcases this with hx | hx
            · exact n2 hx
            · exact n6 (neg_eq_comm'.2 hx)
          · rw [weights2_self, frac_eq hl.ne' hm.ne'] at k1
            rw [weights2_other, frac_eq hl.ne' hm.ne'] at k2
            rw [hc, c6] at *
            refine ⟨⟨by linear_combination -k1, by linear_combination -k2⟩, by ring⟩
        · obtain ⟨ha, hb', hc', hkp⟩ := hp.inner hc
          rw [hkp] at hk
          obtain ⟨n1, n2, n3, n4, n5, n6⟩ := h.ne hp.lt
          rcases key_cases hd with ⟨x, hx, hkq⟩ | ⟨x, a, b, s, hx, hkq⟩ | hkq
          · rw [hkq] at hk; cases hk
          · rw [hkq] at hk; cases hk
          · rw [hkq] at hk
            injection hk with hk
            have k1 := congrFun hk p.face
            have k2 := congrFun hk (S.tri.faces.fwd p.face)
            have k3 := congrFun hk (S.tri.faces.fwd (S.tri.faces.fwd p.face))
            unfold weights3 at k1 k2 k3
            simp only [if_true, if_neg n1.symm, if_neg n2.symm, if_neg n3.symm, frac_eq hl.ne' hm.ne'] at k1 k2 k3
            exact ⟨⟨by linear_combination -k1, by linear_combination -k2⟩, by linear_combination -k3⟩

end FlatTri

end Verif
