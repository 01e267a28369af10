import Verif.Lemmas.PointCode
import Verif.Lemmas.FlatExamples

/-!
# C30: points compare by position on the surface
-/

namespace Verif.C30

open Verif Spec Tri FlatTri Examples

variable {T : Type} [CommRing T] [LinearOrder T] [IsStrictOrderedRing T]

/-- A point has been created from a description of its position. -/
def Created (dbg : Bool) (S : FlatTri T) (d p : Point T) : Prop :=
  Describes S d ∧ S.point dbg d.face d.a d.b d.c = .ok p

theorem Created.normal {dbg : Bool} {S : FlatTri T} (h : Closed dbg S) {d p : Point T} (hp : Created dbg S d p) :
    Normal S p ∧ SamePosition S d p := by
  obtain ⟨q, h1, h2⟩ := h.shut.point dbg hp.1
  rw [hp.2] at h1
  injection h1 with h1
  exact h1 ▸ h2

/-- Each description of a position can be used to create a point. -/
theorem point_accepts {dbg : Bool} {S : FlatTri T} (h : Closed dbg S) {d : Point T} (hd : Describes S d) :
    ∃ p, Created dbg S d p ∧ SamePosition S d p := by
  obtain ⟨q, h1, h2, h3⟩ := h.shut.point dbg hd
  exact ⟨q, ⟨hd, h1⟩, h3⟩

/-- Weights which sum to zero and negative weights are rejected. -/
theorem point_rejects (dbg : Bool) (S : FlatTri T) {e : HE} (he : e < S.tri.size) (a b c : T) :
    (a + b + c = 0 → S.point dbg e a b c = .error .invalidArgument) ∧
    (a + b + c ≠ 0 → (a < 0 ∨ b < 0 ∨ c < 0) → S.point dbg e a b c = .error .logicError) := by
  unfold point FlatTri.normalize
  rw [if_neg (not_le.2 he)]
  exact ⟨fun h0 => if_pos h0, fun h0 hn => by rw [if_neg h0, if_pos hn]⟩

/-- `==` decides whether positions are the same. -/
theorem eq_correct {dbg : Bool} {S : FlatTri T} (h : Closed dbg S) {d d' p p' : Point T} (hp : Created dbg S d p)
    (hp' : Created dbg S d' p') : ∃ r, S.pointEq p p' = .ok r ∧ (r = true ↔ SamePosition S d d') := by
  obtain ⟨n1, s1⟩ := hp.normal h
  obtain ⟨n2, s2⟩ := hp'.normal h
  obtain ⟨r, h1, h2⟩ := h.shut.pointEq n1 n2
  exact ⟨r, h1, h2.trans ⟨fun hs => (s1.trans hs).trans s2.symm, fun hs => (s1.symm.trans hs).trans s2⟩⟩

/-- `in(face)` says whether the point is in a face or on its boundary. -/
theorem in_correct {dbg : Bool} {S : FlatTri T} (h : Closed dbg S) {d p : Point T} (hp : Created dbg S d p) {e : HE}
    (he : e < S.tri.size) : S.pointIsIn p e = true ↔ ∃ a b c, SamePosition S d ⟨e, a, b, c⟩ := by
  obtain ⟨n1, s1⟩ := hp.normal h
  rw [h.shut.in_iff n1 he]
  exact ⟨fun ⟨a, b, c, hs⟩ => ⟨a, b, c, s1.trans hs⟩, fun ⟨a, b, c, hs⟩ => ⟨a, b, c, s1.symm.trans hs⟩⟩

/-- `coordinates(face)` describes the position with respect to the face; it throws if the point is not in that face. -/
theorem coordinates_correct {dbg : Bool} {S : FlatTri T} (h : Closed dbg S) {d p : Point T} (hp : Created dbg S d p)
    {e : HE} (he : e < S.tri.size) :
    (∃ a b c, S.coordinates p e = .ok (a, b, c) ∧ SamePosition S d ⟨e, a, b, c⟩) ∨
    S.coordinates p e = .error .invalidArgument ∧ ∀ a b c, ¬ SamePosition S d ⟨e, a, b, c⟩ := by
  obtain ⟨n1, s1⟩ := hp.normal h
  by_cases hin : S.pointIsIn p e = true
  · obtain ⟨⟨a, b, c⟩, h1, h2⟩ := h.shut.coordinates n1 he hin
    exact .inl ⟨a, b, c, h1, s1.trans h2⟩
  · refine .inr ⟨?_, fun a b c hs => hin ((in_correct h hp he).2 ⟨a, b, c, hs⟩)⟩
    unfold coordinates
    simp [hin]

/-- `face()` is a face that contains the point. -/
theorem face_correct {dbg : Bool} {S : FlatTri T} (h : Closed dbg S) {d p : Point T} (hp : Created dbg S d p) :
    p.face < S.tri.size ∧ ∃ a b c, SamePosition S d ⟨p.face, a, b, c⟩ :=
  ⟨(hp.normal h).1.lt, _, _, _, (hp.normal h).2⟩

/-- `vertex()` returns the vertex at the position if there is one. -/
theorem vertex_correct {dbg : Bool} {S : FlatTri T} (h : Closed dbg S) {d p : Point T} (hp : Created dbg S d p)
    (v : Finset HE) : S.vertexOf p = some v ↔
      ∃ e < S.tri.size, S.tri.source e = some v ∧ SamePosition S d ⟨e, 1, 0, 0⟩ := by
  obtain ⟨n1, s1⟩ := hp.normal h
  have hd : ∀ {e}, e < S.tri.size → Describes S (⟨e, 1, 0, 0⟩ : Point T) := fun he =>
    ⟨he, ⟨zero_le_one, le_refl 0, le_refl 0⟩, by simp⟩
  constructor
  · intro hv
    have hb : p.b = 0 := by
      by_contra hb
      rw [vertexOf_none hb] at hv
      cases hv
    refine ⟨p.face, n1.lt, ?_, s1.trans (n1.vertex h.shut hb).1⟩
    unfold vertexOf at hv
    split_ifs at hv
    exact hv
  · rintro ⟨e, he, hv, hs⟩
    have hk := (s1.symm.trans hs).key h.shut n1.toDescribes
    have hkv : S.key (⟨e, 1, 0, 0⟩ : Point T) = .vertex {z | S.tri.vertices.Orb e z} := by
      unfold key
      simp
    rw [hkv] at hk
    have hb : p.b = 0 := by
      by_contra hb
      by_cases hc : p.c = 0
      · rw [n1.edge hb hc] at hk; cases hk
      · rw [(n1.inner hc).2.2.2] at hk; cases hk
    rw [(n1.vertex h.shut hb).2] at hk
    injection hk with hk
    obtain ⟨w, hw, hwo⟩ := h.shut.vertexOf_some n1 hb
    obtain ⟨v', hv', hvo⟩ := h.shut.source he
    rw [hv] at hv'
    injection hv' with hv'
    rw [hw, hv']
    congr 1
    ext z
    rw [hwo, hvo]
    exact Set.ext_iff.1 hk z

/-- `at(vertex)` says whether the position is the vertex. -/
theorem at_correct {dbg : Bool} {S : FlatTri T} (h : Closed dbg S) {d p : Point T} (hp : Created dbg S d p)
    {e : HE} (he : e < S.tri.size) {v : Finset HE} (hv : S.tri.source e = some v) :
    S.pointIsAt p v = true ↔ SamePosition S d ⟨e, 1, 0, 0⟩ := by
  obtain ⟨n1, s1⟩ := hp.normal h
  have hd : Describes S (⟨e, 1, 0, 0⟩ : Point T) := ⟨he, ⟨zero_le_one, le_refl 0, le_refl 0⟩, by simp⟩
  obtain ⟨v', hv', hvo⟩ := h.shut.source he
  rw [hv] at hv'
  injection hv' with hv'
  subst hv'
  unfold pointIsAt
  by_cases hb : p.b = 0
  · obtain ⟨w, hw, hwo⟩ := h.shut.vertexOf_some n1 hb
    rw [hw]
    simp only
    rw [h.shut.sameVertex hwo hvo]
    constructor
    · intro ho
      exact (s1.trans (n1.vertex h.shut hb).1).trans (SamePosition.vertex h.shut n1.lt ho)
    · intro hs
      have hk := (s1.symm.trans hs).key h.shut n1.toDescribes
      rw [(n1.vertex h.shut hb).2] at hk
      have hkv : S.key (⟨e, 1, 0, 0⟩ : Point T) = .vertex {z | S.tri.vertices.Orb e z} := by
        unfold key
        simp
      rw [hkv] at hk
      injection hk with hk
      have : e ∈ {z | S.tri.vertices.Orb e z} := Perm.Orb.refl _ _
      rwa [← hk] at this
  · rw [vertexOf_none hb]
    simp only [Bool.false_eq_true, false_iff]
    intro hs
    have := (vertex_correct h hp v).2 ⟨e, he, hv, hs⟩
    rw [vertexOf_none hb] at this
    cases this

/-- `on(edge)` says whether the position is on the edge, including its end points. -/
theorem on_correct {dbg : Bool} {S : FlatTri T} (h : Closed dbg S) {d p : Point T} (hp : Created dbg S d p) {e : HE}
    (he : e < S.tri.size) : S.pointIsOn p (Edge.ofHalfEdge e) = true ↔ ∃ a b, SamePosition S d ⟨e, a, b, 0⟩ := by
  obtain ⟨n1, s1⟩ := hp.normal h
  rw [h.shut.pointIsOn n1 he]
  constructor
  · rintro (⟨hb, ho | ho⟩ | ⟨hb, hc, hf | hf⟩)
    · exact ⟨1, 0, (s1.trans (n1.vertex h.shut hb).1).trans (SamePosition.vertex h.shut n1.lt ho)⟩
    · refine ⟨0, 1, ((s1.trans (n1.vertex h.shut hb).1).trans (SamePosition.vertex h.shut n1.lt ho)).trans ?_⟩
      have := SamePosition.glue (S := S) (e := neg e) (a := 1) (b := 0)
      rwa [neg_neg'] at this
    · obtain ⟨f, a, b, c⟩ := p
      simp only at hf hc
      exact ⟨a, b, by rw [← hf, ← hc]; exact s1⟩
    · obtain ⟨f, a, b, c⟩ := p
      simp only at hf hc
      subst hf hc
      refine ⟨b, a, s1.trans ?_⟩
      have := SamePosition.glue (S := S) (e := neg e) (a := a) (b := b)
      rwa [neg_neg'] at this
  · rintro ⟨a, b, hs⟩
    have hs' := s1.symm.trans hs
    have hk := hs'.key h.shut n1.toDescribes
    have hd := (hs'.describes h.shut).1 n1.toDescribes
    have hpos := hd.pos
    simp only [add_zero] at hpos
    by_cases hb : p.b = 0
    · refine .inl ⟨hb, ?_⟩
      rw [(n1.vertex h.shut hb).2] at hk
      unfold key at hk
      simp only [if_true] at hk
      split_ifs at hk with c1 c2 c3
      · subst c1 c2; simp at hpos
      · injection hk with hk
        right
        have := h.shut.orb_across (h.shut.neg_lt he)
        rw [neg_neg'] at this
        have h2 : neg e ∈ {z | S.tri.vertices.Orb (S.tri.faces.fwd e) z} := this
        rwa [← hk] at h2
      · injection hk with hk
        left
        have h2 : e ∈ {z | S.tri.vertices.Orb e z} := Perm.Orb.refl _ _
        rwa [← hk] at h2
    · right
      have hc : p.c = 0 := by
        by_contra hc
        rw [(n1.inner hc).2.2.2] at hk
        unfold key at hk
        simp only [if_true] at hk
        split_ifs at hk
      refine ⟨hb, hc, ?_⟩
      rw [n1.edge hb hc] at hk
      unfold key at hk
      simp only [if_true] at hk
      split_ifs at hk with c1 c2 c3
      injection hk with hk
      have ha : p.a ≠ 0 := (n1.normal.resolve_left fun hx => hx.2.2.ne' hc).2.ne'
      refine weights2_support (a := a) (b := b) (s := a + b + 0) ?_
      rw [← hk, weights2_self]
      exact frac_ne ha n1.pos.ne'

/-- The point of a vertex. -/
theorem pointAt_correct {dbg : Bool} {S : FlatTri T} (h : Closed dbg S) {e : HE} (he : e < S.tri.size) {v : Finset HE}
    (hv : S.tri.source e = some v) :
    ∃ d p, Created dbg S d p ∧ SamePosition S d ⟨e, 1, 0, 0⟩ ∧ S.pointAt dbg v = .ok p := by
  obtain ⟨v', hv', hvo⟩ := h.shut.source he
  rw [hv] at hv'
  injection hv' with hv'
  subst hv'
  obtain ⟨m, hm⟩ := Finset.min_of_mem ((hvo e).2 (Perm.Orb.refl _ _))
  have ho := (hvo m).1 (Finset.mem_of_min hm)
  have hlt : m < S.tri.size := ho.lt h.shut.flat.coh.hv he
  have hd : Describes S (⟨m, 1, 0, 0⟩ : Point T) := ⟨hlt, ⟨zero_le_one, le_refl 0, le_refl 0⟩, by simp⟩
  obtain ⟨p, hp, hs⟩ := point_accepts h hd
  refine ⟨_, p, hp, SamePosition.vertex h.shut hlt (ho.symm h.shut.flat.coh.hv), ?_⟩
  unfold pointAt
  rw [hm]
  exact hp.2

/-! ### What positions are -/

/-- For points in the interior of faces, positions are the same only if the weights are proportional. -/
theorem inner_same {dbg : Bool} {S : FlatTri T} (h : Closed dbg S) {e : HE} (he : e < S.tri.size) {a b c a' b' c' : T}
    (h0 : 0 < a ∧ 0 < b ∧ 0 < c) (h1 : 0 < a' ∧ 0 < b' ∧ 0 < c') :
    SamePosition S ⟨e, a, b, c⟩ ⟨e, a', b', c'⟩ ↔ a * b' = a' * b ∧ b * c' = b' * c := by
  obtain ⟨a0, b0, c0⟩ := h0
  obtain ⟨a1, b1, c1⟩ := h1
  have d0 : Describes S (⟨e, a, b, c⟩ : Point T) := ⟨he, ⟨a0.le, b0.le, c0.le⟩, by simp only; linarith⟩
  have d1 : Describes S (⟨e, a', b', c'⟩ : Point T) := ⟨he, ⟨a1.le, b1.le, c1.le⟩, by simp only; linarith⟩
  constructor
  · intro hs
    have hk := hs.key h.shut d0
    unfold key at hk
    simp only [a0.ne', b0.ne', c0.ne', a1.ne', b1.ne', c1.ne', if_false] at hk
    injection hk with hk
    obtain ⟨n1, n2, n3, -⟩ := h.shut.ne he
    have k1 := congrFun hk e
    have k2 := congrFun hk (S.tri.faces.fwd e)
    have k3 := congrFun hk (S.tri.faces.fwd (S.tri.faces.fwd e))
    have s0 : a + b + c ≠ 0 := d0.pos.ne'
    have s1 : a' + b' + c' ≠ 0 := d1.pos.ne'
    unfold weights3 at k1 k2 k3
    simp only [if_true, if_neg n1.symm, if_neg n2.symm, if_neg n3.symm, frac_eq s0 s1] at k1 k2 k3
    constructor
    · apply mul_left_cancel₀ s0
      linear_combination -a * k2 + b * k1
    · apply mul_left_cancel₀ s0
      linear_combination -b * k3 + c * k2
  · rintro ⟨h2, h3⟩
    exact .proportional b1 b0 (by linear_combination h2) (by ring) (by linear_combination -h3)

/-- For points in the interior of an edge, positions are the same only if the weights are proportional. -/
theorem edge_same {dbg : Bool} {S : FlatTri T} (h : Closed dbg S) {e : HE} (he : e < S.tri.size) {a b a' b' : T}
    (h0 : 0 < a ∧ 0 < b) (h1 : 0 < a' ∧ 0 < b') :
    SamePosition S ⟨e, a, b, 0⟩ ⟨e, a', b', 0⟩ ↔ a * b' = a' * b := by
  obtain ⟨a0, b0⟩ := h0
  obtain ⟨a1, b1⟩ := h1
  have d0 : Describes S (⟨e, a, b, 0⟩ : Point T) := ⟨he, ⟨a0.le, b0.le, le_refl 0⟩, by simp only; linarith⟩
  have d1 : Describes S (⟨e, a', b', 0⟩ : Point T) := ⟨he, ⟨a1.le, b1.le, le_refl 0⟩, by simp only; linarith⟩
  constructor
  · intro hs
    have hk := hs.key h.shut d0
    unfold key at hk
    simp only [a0.ne', b0.ne', a1.ne', b1.ne', if_false, if_true] at hk
    injection hk with hk
    have k1 := congrFun hk e
    have k2 := congrFun hk (neg e)
    have s0 : a + b + 0 ≠ 0 := d0.pos.ne'
    have s1 : a' + b' + 0 ≠ 0 := d1.pos.ne'
    rw [weights2_self, weights2_self, frac_eq s0 s1] at k1
    rw [weights2_other, weights2_other, frac_eq s0 s1] at k2
    apply mul_left_cancel₀ s0
    linear_combination -a * k2 + b * k1
  · intro h2
    exact .proportional b1 b0 (by linear_combination h2) (by ring) (by ring)

/-- A point in the interior of a face is not in any other face. -/
theorem inner_face {dbg : Bool} {S : FlatTri T} (h : Closed dbg S) {e e' : HE} (he : e < S.tri.size) {a b c a' b' c' : T}
    (h0 : 0 < a ∧ 0 < b ∧ 0 < c) (hs : SamePosition S ⟨e, a, b, c⟩ ⟨e', a', b', c'⟩) :
    e' = e ∨ e' = S.tri.nextInFace e ∨ e' = S.tri.nextInFace (S.tri.nextInFace e) := by
  obtain ⟨a0, b0, c0⟩ := h0
  have d0 : Describes S (⟨e, a, b, c⟩ : Point T) := ⟨he, ⟨a0.le, b0.le, c0.le⟩, by simp only; linarith⟩
  have d1 := (hs.describes h.shut).1 d0
  have hk := hs.key h.shut d0
  have hkp : S.key (⟨e, a, b, c⟩ : Point T) = _ := (Normal.inner (⟨d0, .inl ⟨a0, b0, c0⟩⟩ : Normal S _) c0.ne').2.2.2
  rw [hkp] at hk
  have hside : S.Side e' e := by
    rcases key_cases d1 with ⟨x, hx, hkq⟩ | ⟨x, a, b, s, hx, hkq⟩ | hkq
    · rw [hkq] at hk; cases hk
    · rw [hkq] at hk; cases hk
    · rw [hkq] at hk
      injection hk with hk
      refine weights3_support (a := a') (b := b') (c := c') (s := a' + b' + c') ?_
      rw [← hk]
      unfold weights3
      rw [if_pos rfl]
      exact frac_ne a0.ne' d0.pos.ne'
  exact h.shut.side_symm hside

/-- Corners of faces are the same position exactly if the half edges start at the same vertex. -/
theorem vertex_same {dbg : Bool} {S : FlatTri T} (h : Closed dbg S) {e e' : HE} (he : e < S.tri.size)
    (he' : e' < S.tri.size) :
    SamePosition S ⟨e, (1 : T), 0, 0⟩ ⟨e', 1, 0, 0⟩ ↔ S.tri.source e = S.tri.source e' := by
  have hk : ∀ x, S.key (⟨x, 1, 0, 0⟩ : Point T) = .vertex {z | S.tri.vertices.Orb x z} := by
    intro x
    unfold key
    simp
  have hd : ∀ {e}, e < S.tri.size → Describes S (⟨e, 1, 0, 0⟩ : Point T) := fun he =>
    ⟨he, ⟨zero_le_one, le_refl 0, le_refl 0⟩, by simp⟩
  obtain ⟨v, hv, hvo⟩ := h.shut.source he
  obtain ⟨w, hw, hwo⟩ := h.shut.source he'
  rw [samePosition_iff h.shut (hd he) (hd he'), hk, hk, hv, hw]
  constructor
  · intro hx
    injection hx with hx
    congr 1
    ext z
    rw [hvo, hwo]
    exact Set.ext_iff.1 hx z
  · intro hx
    injection hx with hx
    congr 1
    ext z
    show S.tri.vertices.Orb e z ↔ S.tri.vertices.Orb e' z
    rw [← hvo, ← hwo, hx]

/-! ### Examples -/

theorem flatTorus_closed : Closed true flatTorus := ⟨torus_reachable true, flatTorus_isFlat, by decide⟩

/-- Two descriptions of a point on the diagonal of the torus, in the faces on both sides. -/
example : ∃ p p', Created true flatTorus ⟨4, 1, 2, 0⟩ p ∧ Created true flatTorus ⟨5, 4, 2, 0⟩ p' ∧
    flatTorus.pointEq p p' = .ok true ∧ flatTorus.coordinates p 5 = .ok (2, 1, 0) :=
  ⟨_, _, ⟨⟨by decide, by decide, by decide⟩, rfl⟩, ⟨⟨by decide, by decide, by decide⟩, rfl⟩, rfl, rfl⟩

/-- The vertex of the torus and a point in the interior. -/
example : ∃ p p', Created true flatTorus ⟨4, 1, 0, 0⟩ p ∧ Created true flatTorus ⟨5, 1, 2, 3⟩ p' ∧
    flatTorus.pointEq p p' = .ok false ∧ flatTorus.pointIsIn p 5 = true ∧ flatTorus.pointIsIn p' 4 = false :=
  ⟨_, _, ⟨⟨by decide, by decide, by decide⟩, rfl⟩, ⟨⟨by decide, by decide, by decide⟩, rfl⟩, rfl, rfl, rfl⟩

example : 0 < flatTorus.tri.size ∧ ∃ v, flatTorus.tri.source 0 = some v := ⟨by decide, _, rfl⟩

end Verif.C30
