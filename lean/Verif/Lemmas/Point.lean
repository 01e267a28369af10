import Verif.Spec.Point
import Verif.Lemmas.Flat
import Mathlib.RingTheory.Localization.FractionRing

/-!
# Lemmas about points
-/

set_option linter.unusedSectionVars false

namespace Verif

open Spec Tri

variable {T : Type} [CommRing T] [LinearOrder T] [IsStrictOrderedRing T]

namespace FlatTri

/-- A surface without boundary. -/
structure Shut (S : FlatTri T) : Prop where
  flat : S.Flat
  nb : ∀ x < S.tri.size, S.tri.faces.fwd x ≠ x

theorem _root_.Verif.Spec.Closed.shut {dbg : Bool} {S : FlatTri T} (h : Closed dbg S) : S.Shut :=
  ⟨IsFlat.flat h.reachable h.flat, hasBoundary_false.1 h.closed⟩

namespace Shut

variable {S : FlatTri T}

theorem quad (h : S.Shut) {e : HE} (he : e < S.tri.size) :
    S.tri.Quad e (S.tri.faces.fwd e) (S.tri.faces.fwd (S.tri.faces.fwd e)) (S.tri.faces.fwd (neg e))
      (S.tri.faces.fwd (S.tri.faces.fwd (neg e))) :=
  h.flat.coh.quad (h.flat.flippable (h.nb e he) (h.nb _ ((h.flat.coh.neg_lt e).2 he)))

theorem neg_lt (h : S.Shut) {e : HE} (he : e < S.tri.size) : neg e < S.tri.size := (h.flat.coh.neg_lt e).2 he

theorem next_lt (h : S.Shut) {e : HE} (he : e < S.tri.size) : S.tri.faces.fwd e < S.tri.size := (h.quad he).lt.2.1

theorem next3 (h : S.Shut) (e : HE) : S.tri.faces.fwd (S.tri.faces.fwd (S.tri.faces.fwd e)) = e := h.flat.coh.tri e

theorem prev (h : S.Shut) (e : HE) : S.tri.faces.inv e = S.tri.faces.fwd (S.tri.faces.fwd e) := by
  conv_lhs => rw [← h.next3 e]
  rw [h.flat.coh.hf.left]

theorem ne (h : S.Shut) {e : HE} (he : e < S.tri.size) : e ≠ S.tri.faces.fwd e ∧ e ≠ S.tri.faces.fwd (S.tri.faces.fwd e) ∧
    S.tri.faces.fwd e ≠ S.tri.faces.fwd (S.tri.faces.fwd e) ∧ neg e ≠ e ∧ neg e ≠ S.tri.faces.fwd e ∧
    neg e ≠ S.tri.faces.fwd (S.tri.faces.fwd e) := by
  obtain ⟨⟨ea, eb, ee', ec, ed⟩, ⟨ab, ae', ac, ad⟩, ⟨be', bc, bd⟩, ⟨e'c, e'd⟩, cd⟩ := (h.quad he).ne
  exact ⟨ea, eb, ab, ee'.symm, ae'.symm, be'.symm⟩

/-- The half edge with the same source in the face across `e`. -/
theorem orb_across (h : S.Shut) {e : HE} (he : e < S.tri.size) : S.tri.vertices.Orb (S.tri.faces.fwd (neg e)) e :=
  ⟨1, (h.quad he).vc⟩

theorem orb_iff (h : S.Shut) {x y : HE} (hxy : S.tri.vertices.Orb x y) :
    {z | S.tri.vertices.Orb x z} = {z | S.tri.vertices.Orb y z} := by
  ext z
  exact ⟨fun hz => (hxy.symm h.flat.coh.hv).trans hz, fun hz => hxy.trans hz⟩

end Shut

end FlatTri

/-! ### An invariant of positions -/

section key

/-- The quotient of two ring elements. -/
noncomputable def frac (x s : T) : FractionRing T := algebraMap T (FractionRing T) x / algebraMap T (FractionRing T) s

theorem frac_eq {x s y t : T} (hs : s ≠ 0) (ht : t ≠ 0) : frac x s = frac y t ↔ x * t = y * s := by
  have inj := IsFractionRing.injective T (FractionRing T)
  have h1 : algebraMap T (FractionRing T) s ≠ 0 := by rwa [Ne, map_eq_zero_iff _ inj]
  have h2 : algebraMap T (FractionRing T) t ≠ 0 := by rwa [Ne, map_eq_zero_iff _ inj]
  unfold frac
  rw [div_eq_div_iff h1 h2, ← map_mul, ← map_mul, inj.eq_iff]

theorem frac_ne {x s : T} (hx : x ≠ 0) (hs : s ≠ 0) : frac x s ≠ 0 := by
  have inj := IsFractionRing.injective T (FractionRing T)
  unfold frac
  rw [Ne, div_eq_zero_iff, map_eq_zero_iff _ inj, map_eq_zero_iff _ inj]
  tauto

theorem frac_scale {l x s : T} (hl : l ≠ 0) (hs : s ≠ 0) : frac (l * x) (l * s) = frac x s := by
  rw [frac_eq (mul_ne_zero hl hs) hs]
  ring

inductive Key (K : Type) where
  | vertex (V : Set HE)
  | edge (w : HE → K)
  | inner (w : HE → K)

noncomputable def weights2 (e : HE) (a b s : T) (x : HE) : FractionRing T :=
  if x = e then frac a s else if x = neg e then frac b s else 0

noncomputable def weights3 (e e1 e2 : HE) (a b c s : T) (x : HE) : FractionRing T :=
  if x = e then frac a s else if x = e1 then frac b s else if x = e2 then frac c s else 0

/-- An invariant of the position. -/
noncomputable def FlatTri.key (S : FlatTri T) (p : Point T) : Key (FractionRing T) :=
  let e := p.face
  let e1 := S.tri.faces.fwd e
  let e2 := S.tri.faces.fwd e1
  let s := p.a + p.b + p.c
  if p.a = 0 then
    if p.b = 0 then .vertex {z | S.tri.vertices.Orb e2 z}
    else if p.c = 0 then .vertex {z | S.tri.vertices.Orb e1 z}
    else .edge (weights2 e1 p.b p.c s)
  else if p.b = 0 then
    if p.c = 0 then .vertex {z | S.tri.vertices.Orb e z} else .edge (weights2 e2 p.c p.a s)
  else if p.c = 0 then .edge (weights2 e p.a p.b s)
  else .inner (weights3 e e1 e2 p.a p.b p.c s)

theorem weights2_neg (e : HE) (a b s : T) : weights2 (neg e) b a s = weights2 e a b s := by
  funext x
  unfold weights2
  rw [neg_neg']
  have := neg_ne e
  split_ifs with h1 h2 <;> first | rfl | (exfalso; subst h1; exact this h2)

end key

namespace Spec

variable {S : FlatTri T}

theorem SamePosition.describes (h : S.Shut) {p q : Point T} (hpq : SamePosition S p q) : Describes S p ↔ Describes S q := by
  induction hpq with
  | scale l hl =>
    rename_i e a b c
    have key : ∀ x : T, 0 ≤ l * x ↔ 0 ≤ x := fun x => mul_nonneg_iff_of_pos_left hl
    constructor
    · rintro ⟨h1, ⟨h2, h3, h4⟩, h5⟩
      refine ⟨h1, ⟨(key _).2 h2, (key _).2 h3, (key _).2 h4⟩, ?_⟩
      have := mul_pos hl h5
      simp only at this ⊢
      linarith
    · rintro ⟨h1, ⟨h2, h3, h4⟩, h5⟩
      refine ⟨h1, ⟨(key _).1 h2, (key _).1 h3, (key _).1 h4⟩, ?_⟩
      simp only at h5 ⊢
      have e1 : l * a + l * b + l * c = l * (a + b + c) := by ring
      rw [e1] at h5
      exact (mul_pos_iff_of_pos_left hl).1 h5
  | rotate =>
    rename_i e a b c
    constructor
    · rintro ⟨h1, ⟨h2, h3, h4⟩, h5⟩
      exact ⟨h.next_lt h1, ⟨h3, h4, h2⟩, by simp only at h5 ⊢; linarith⟩
    · rintro ⟨h1, ⟨h2, h3, h4⟩, h5⟩
      refine ⟨?_, ⟨h4, h2, h3⟩, by simp only at h5 ⊢; linarith⟩
      have := h.next_lt (h.next_lt h1)
      unfold Tri.nextInFace at this
      rwa [h.next3] at this
  | glue =>
    rename_i e a b
    constructor
    · rintro ⟨h1, ⟨h2, h3, h4⟩, h5⟩
      exact ⟨h.neg_lt h1, ⟨h3, h2, h4⟩, by simp only at h5 ⊢; linarith⟩
    · rintro ⟨h1, ⟨h2, h3, h4⟩, h5⟩
      refine ⟨?_, ⟨h3, h2, h4⟩, by simp only at h5 ⊢; linarith⟩
      have := h.neg_lt h1
      rwa [neg_neg'] at this
  | refl => exact Iff.rfl
  | symm _ ih => exact ih.symm
  | trans _ _ ih1 ih2 => exact ih1.trans ih2

theorem SamePosition.key (h : S.Shut) {p q : Point T} (hpq : SamePosition S p q) (hp : Describes S p) :
    S.key p = S.key q := by
  induction hpq with
  | scale l hl =>
    rename_i e a b c
    have key : ∀ x : T, l * x = 0 ↔ x = 0 := fun x => by simp [hl.ne']
    have hs : a + b + c ≠ 0 := hp.pos.ne'
    have e1 : l * a + l * b + l * c = l * (a + b + c) := by ring
    unfold FlatTri.key
    simp only [key, e1]
    have w2 : ∀ x y z, weights2 x (l * y) (l * z) (l * (a + b + c)) = weights2 x y z (a + b + c) := by
      intro x y z
      funext t
      unfold weights2
      rw [frac_scale hl.ne' hs, frac_scale hl.ne' hs]
    have w3 : ∀ x x' x'' y z t, weights3 x x' x'' (l * y) (l * z) (l * t) (l * (a + b + c)) =
        weights3 x x' x'' y z t (a + b + c) := by
      intro x x' x'' y z t
      funext t
      unfold weights3
      rw [frac_scale hl.ne' hs, frac_scale hl.ne' hs, frac_scale hl.ne' hs]
    simp only [w2, w3]
  | rotate =>
    rename_i e a b c
    obtain ⟨n1, n2, n3, -⟩ := h.ne hp.lt
    simp only at n1 n2 n3
    have hs : a + b + c ≠ 0 := hp.pos.ne'
    have e1 : b + c + a = a + b + c := by ring
    unfold FlatTri.key Tri.nextInFace
    simp only [h.next3, e1]
    by_cases ha : a = 0 <;> by_cases hb : b = 0 <;> by_cases hc : c = 0 <;> simp only [ha, hb, hc, if_true, if_false]
    · subst ha hb hc
      simp at hs
    · congr 1
      funext x
      unfold weights3
      split_ifs <;> first | rfl | (exfalso; simp_all)
  | glue =>
    rename_i e a b
    unfold FlatTri.key
    have hs : a + b + 0 ≠ 0 := hp.pos.ne'
    have e1 : b + a + 0 = a + b + 0 := by ring
    have o1 := h.orb_iff (h.orb_across hp.lt)
    have o2 := h.orb_iff (h.orb_across (h.neg_lt hp.lt))
    simp only [neg_neg'] at o1 o2
    simp only [if_true, e1, weights2_neg]
    by_cases ha : a = 0 <;> by_cases hb : b = 0 <;> simp only [ha, hb, if_true, if_false]
    · subst ha hb
      simp at hs
    · rw [o2]
    · rw [o1]
  | refl => rfl
  | symm h1 ih => exact (ih ((h1.describes h).2 hp)).symm
  | trans h1 _ ih1 ih2 => exact (ih1 hp).trans (ih2 ((h1.describes h).1 hp))

/-- Proportional weights. -/
theorem SamePosition.proportional {e : HE} {a b c a' b' c' l m : T} (hl : 0 < l) (hm : 0 < m) (h1 : l * a = m * a')
    (h2 : l * b = m * b') (h3 : l * c = m * c') : SamePosition S ⟨e, a, b, c⟩ ⟨e, a', b', c'⟩ := by
  have s1 : SamePosition S ⟨e, a, b, c⟩ _ := .scale l hl
  have s2 : SamePosition S ⟨e, a', b', c'⟩ _ := .scale m hm
  rw [h1, h2, h3] at s1
  exact s1.trans s2.symm

theorem SamePosition.vertex (h : S.Shut) {x y : HE} (hx : x < S.tri.size) (hxy : S.tri.vertices.Orb x y) :
    SamePosition S ⟨x, (1 : T), 0, 0⟩ ⟨y, 1, 0, 0⟩ := by
  obtain ⟨k, rfl⟩ := hxy
  induction k with
  | zero => exact .refl _
  | succ k ih =>
    rw [Function.iterate_succ_apply']
    have hy : S.tri.vertices.fwd^[k] x < S.tri.size := Perm.Orb.lt h.flat.coh.hv ⟨k, rfl⟩ hx
    generalize S.tri.vertices.fwd^[k] x = y at *
    refine ih.trans ?_
    rw [(h.quad hy).ve]
    -- the third corner of the face
    have r1 : SamePosition S ⟨y, (1 : T), 0, 0⟩ ⟨S.tri.faces.fwd y, 0, 0, 1⟩ := .rotate
    have r2 : SamePosition S ⟨S.tri.faces.fwd y, (0 : T), 0, 1⟩ ⟨S.tri.faces.fwd (S.tri.faces.fwd y), 0, 1, 0⟩ := .rotate
    exact (r1.trans r2).trans .glue

/-- The weights with which points are stored. -/
structure Normal (S : FlatTri T) (p : Point T) : Prop extends Describes S p where
  normal : 0 < p.a ∧ 0 < p.b ∧ 0 < p.c ∨ p.c = 0 ∧ 0 < p.a

theorem SamePosition.rotate2 (h : S.Shut) {e : HE} {a b c : T} :
    SamePosition S ⟨e, a, b, c⟩ ⟨S.tri.faces.fwd (S.tri.faces.fwd e), c, a, b⟩ :=
  SamePosition.trans .rotate .rotate

theorem Normal.vertex (h : S.Shut) {p : Point T} (hp : Normal S p) (hb : p.b = 0) :
    SamePosition S p ⟨p.face, 1, 0, 0⟩ ∧ S.key p = .vertex {z | S.tri.vertices.Orb p.face z} := by
  obtain ⟨e, a, b, c⟩ := p
  have hn := hp.normal
  simp only at hb hn
  subst hb
  obtain ⟨rfl, ha⟩ : c = 0 ∧ 0 < a := by simpa using hn
  refine ⟨.proportional (l := 1) (m := a) one_pos ha (by ring) (by ring) (by ring), ?_⟩
  unfold FlatTri.key
  simp [ha.ne']

theorem Normal.edge {p : Point T} (hp : Normal S p) (hb : p.b ≠ 0) (hc : p.c = 0) :
    S.key p = .edge (weights2 p.face p.a p.b (p.a + p.b + p.c)) := by
  obtain ⟨e, a, b, c⟩ := p
  have hn := hp.normal
  simp only at hb hn hc
  subst hc
  have ha : 0 < a := by simpa using hn
  unfold FlatTri.key
  simp [ha.ne', hb]

theorem Normal.inner {p : Point T} (hp : Normal S p) (hc : p.c ≠ 0) : 0 < p.a ∧ 0 < p.b ∧ 0 < p.c ∧
    S.key p = .inner (weights3 p.face (S.tri.faces.fwd p.face) (S.tri.faces.fwd (S.tri.faces.fwd p.face)) p.a p.b p.c
      (p.a + p.b + p.c)) := by
  have hn : 0 < p.a ∧ 0 < p.b ∧ 0 < p.c := hp.normal.resolve_right fun hx => hc hx.1
  refine ⟨hn.1, hn.2.1, hn.2.2, ?_⟩
  unfold FlatTri.key
  simp [hn.1.ne', hn.2.1.ne', hn.2.2.ne']

theorem weights2_support {e x : HE} {a b s : T} (hx : weights2 e a b s x ≠ 0) : x = e ∨ x = neg e := by
  unfold weights2 at hx
  by_contra hc
  rw [not_or] at hc
  rw [if_neg hc.1, if_neg hc.2] at hx
  exact hx rfl

theorem weights3_support {e e1 e2 x : HE} {a b c s : T} (hx : weights3 e e1 e2 a b c s x ≠ 0) : x = e ∨ x = e1 ∨ x = e2 := by
  unfold weights3 at hx
  by_contra hc
  rw [not_or, not_or] at hc
  rw [if_neg hc.1, if_neg hc.2.1, if_neg hc.2.2] at hx
  exact hx rfl

theorem weights2_self (e : HE) (a b s : T) : weights2 e a b s e = frac a s := if_pos rfl

theorem weights2_other (e : HE) (a b s : T) : weights2 e a b s (neg e) = frac b s := by
  unfold weights2
  rw [if_neg (neg_ne e), if_pos rfl]

theorem SamePosition.edge {e : HE} {a b a' b' : T} (hs : 0 < a + b) (hs' : 0 < a' + b')
    (hk : weights2 e a b (a + b) = weights2 e a' b' (a' + b')) : SamePosition S ⟨e, a, b, 0⟩ ⟨e, a', b', 0⟩ := by
  have k1 := congrFun hk e
  have k2 := congrFun hk (neg e)
  rw [weights2_self, weights2_self, frac_eq hs.ne' hs'.ne'] at k1
  rw [weights2_other, weights2_other, frac_eq hs.ne' hs'.ne'] at k2
  exact .proportional hs' hs (by linear_combination k1) (by linear_combination k2) (by ring)

theorem SamePosition.inner (h : S.Shut) {e : HE} {a b c a' b' c' : T} (he : e < S.tri.size) (hs : 0 < a + b + c)
    (hs' : 0 < a' + b' + c')
    (hk : weights3 e (S.tri.faces.fwd e) (S.tri.faces.fwd (S.tri.faces.fwd e)) a b c (a + b + c) =
      weights3 e (S.tri.faces.fwd e) (S.tri.faces.fwd (S.tri.faces.fwd e)) a' b' c' (a' + b' + c')) :
    SamePosition S ⟨e, a, b, c⟩ ⟨e, a', b', c'⟩ := by
  obtain ⟨n1, n2, n3, -⟩ := h.ne he
  have k1 := congrFun hk e
  have k2 := congrFun hk (S.tri.faces.fwd e)
  have k3 := congrFun hk (S.tri.faces.fwd (S.tri.faces.fwd e))
  unfold weights3 at k1 k2 k3
  simp only [if_true, if_neg n1.symm, if_neg n2.symm, if_neg n3.symm, frac_eq hs.ne' hs'.ne'] at k1 k2 k3
  exact .proportional hs' hs (by linear_combination k1) (by linear_combination k2) (by linear_combination k3)

/-- Each position has weights of the form with which points are stored. -/
theorem Describes.exists_normal (h : S.Shut) {p : Point T} (hp : Describes S p) :
    ∃ q, Normal S q ∧ SamePosition S p q := by
  obtain ⟨e, a, b, c⟩ := p
  have key : ∀ q, SamePosition S ⟨e, a, b, c⟩ q → (0 < q.a ∧ 0 < q.b ∧ 0 < q.c ∨ q.c = 0 ∧ 0 < q.a) →
      ∃ q, Normal S q ∧ SamePosition S ⟨e, a, b, c⟩ q := fun q h1 h2 =>
    ⟨q, ⟨(h1.describes h).1 hp, h2⟩, h1⟩
  obtain ⟨h1, ⟨h2, h3, h4⟩, h5⟩ := hp
  simp only at h1 h2 h3 h4 h5
  rcases h2.eq_or_lt with ha | ha
  · rcases h3.eq_or_lt with hb | hb
    · exact key _ (SamePosition.rotate2 h) (.inr ⟨hb.symm, by simp only; linarith⟩)
    · exact key _ .rotate (.inr ⟨ha.symm, hb⟩)
  · rcases h4.eq_or_lt with hc | hc
    · exact key _ (.refl _) (.inr ⟨hc.symm, ha⟩)
    · rcases h3.eq_or_lt with hb | hb
      · exact key _ (SamePosition.rotate2 h) (.inr ⟨hb.symm, hc⟩)
      · exact key _ (.refl _) (.inl ⟨ha, hb, hc⟩)

theorem Normal.same_of_key (h : S.Shut) {p q : Point T} (hp : Normal S p) (hq : Normal S q) (hk : S.key p = S.key q) :
    SamePosition S p q := by
  by_cases hpc : p.c = 0
  · by_cases hpb : p.b = 0
    · obtain ⟨p1, p2⟩ := hp.vertex h hpb
      have hqb : q.b = 0 := by
        by_contra hqb
        rw [p2] at hk
        by_cases hqc : q.c = 0
        · rw [hq.edge hqb hqc] at hk; cases hk
        · rw [(hq.inner hqc).2.2.2] at hk; cases hk
      obtain ⟨q1, q2⟩ := hq.vertex h hqb
      rw [p2, q2] at hk
      injection hk with hk
      have : q.face ∈ {z | S.tri.vertices.Orb q.face z} := Perm.Orb.refl _ _
      rw [← hk] at this
      exact (p1.trans (SamePosition.vertex h hp.lt this)).trans q1.symm
    · have k1 := hp.edge hpb hpc
      by_cases hqb : q.b = 0
      · rw [k1, (hq.vertex h hqb).2] at hk; cases hk
      by_cases hqc : q.c = 0
      · rw [k1, hq.edge hqb hqc] at hk
        injection hk with hk
        have hs := hp.pos
        have hs' := hq.pos
        obtain ⟨e, a, b, c⟩ := p
        obtain ⟨e', a', b', c'⟩ := q
        simp only at *
        subst hpc hqc
        have ha : a ≠ 0 := by simpa using (hp.normal.resolve_left (by simp)).2.ne'
        have hx : weights2 e' a' b' (a' + b' + 0) e ≠ 0 := by
          rw [← hk, weights2_self]
          exact frac_ne ha hs.ne'
        rw [add_zero] at hs hs' hk
        rw [add_zero] at hk
        rcases weights2_support hx with rfl | rfl
        · exact .edge hs hs' hk
        · rw [← weights2_neg e' a' b', add_comm a'] at hk
          exact SamePosition.trans (.edge hs (by linarith) hk) (by
            have := SamePosition.glue (S := S) (e := neg e') (a := b') (b := a')
            rwa [neg_neg'] at this)
      · rw [k1, (hq.inner hqc).2.2.2] at hk; cases hk
  · obtain ⟨ha, hb, hc, k1⟩ := hp.inner hpc
    by_cases hqc : q.c = 0
    · by_cases hqb : q.b = 0
      · rw [k1, (hq.vertex h hqb).2] at hk; cases hk
      · rw [k1, hq.edge hqb hqc] at hk; cases hk
    · have k2 := (hq.inner hqc).2.2.2
      have hk' := hk
      rw [k1, k2] at hk
      injection hk with hk
      have hx : weights3 q.face (S.tri.faces.fwd q.face) (S.tri.faces.fwd (S.tri.faces.fwd q.face)) q.a q.b q.c
          (q.a + q.b + q.c) p.face ≠ 0 := by
        rw [← hk]
        unfold weights3
        rw [if_pos rfl]
        exact frac_ne ha.ne' hp.pos.ne'
      have fin : ∀ r : Point T, SamePosition S q r → p.face = r.face →
          S.key r = .inner (weights3 r.face (S.tri.faces.fwd r.face) (S.tri.faces.fwd (S.tri.faces.fwd r.face)) r.a r.b r.c
            (r.a + r.b + r.c)) → SamePosition S p r := by
        intro r hr hf hrk
        have hd := (hr.describes h).1 hq.toDescribes
        rw [hr.key h hq.toDescribes, k1, hrk] at hk'
        injection hk' with hk'
        obtain ⟨e, a, b, c⟩ := p
        obtain ⟨e', a', b', c'⟩ := r
        simp only at hf
        subst hf
        exact .inner h hp.lt hp.pos hd.pos hk'
      obtain ⟨qa, qb, qc, -⟩ := hq.inner hqc
      obtain ⟨e', a', b', c'⟩ := q
      simp only at *
      rcases weights3_support hx with hf | hf | hf
      · exact fin _ (.refl _) hf k2
      · have hr : SamePosition S ⟨e', a', b', c'⟩ ⟨S.tri.faces.fwd e', b', c', a'⟩ := .rotate
        refine (fin _ hr hf ?_).trans hr.symm
        unfold FlatTri.key
        simp [qa.ne', qb.ne', qc.ne']
      · have hr : SamePosition S ⟨e', a', b', c'⟩ ⟨S.tri.faces.fwd (S.tri.faces.fwd e'), c', a', b'⟩ :=
          SamePosition.rotate2 h
        refine (fin _ hr hf ?_).trans hr.symm
        unfold FlatTri.key
        simp [qa.ne', qb.ne', qc.ne']

theorem samePosition_iff (h : S.Shut) {p q : Point T} (hp : Describes S p) (hq : Describes S q) :
    SamePosition S p q ↔ S.key p = S.key q := by
  refine ⟨fun hpq => hpq.key h hp, fun hk => ?_⟩
  obtain ⟨p', n1, s1⟩ := hp.exists_normal h
  obtain ⟨q', n2, s2⟩ := hq.exists_normal h
  refine s1.trans ((n1.same_of_key h n2 ?_).trans s2.symm)
  rw [← s1.key h hp, ← s2.key h hq, hk]

end Spec

end Verif
